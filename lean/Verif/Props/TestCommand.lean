import Verif.Spec.TestCommand
import Verif.Spec.BuildSystems
import Verif.Props.BuildSystems
import Verif.Props.Search
import Verif.Lemmas.Words
/-!
# C167–C170: running the tests of a package
-/
namespace Rez.Props
open Rez Rez.Rex Rez.Tests Rez.Tests.Spec Rez.Spec.Search

namespace TestLemmas

theorem glob_exact {p x : Str} (h : '*' ∉ p) : Glob p x ↔ x = p := by
  constructor
  · intro hg
    induction hg with
    | nil => rfl
    | star => simp at h
    | char _ _ ih => simp at h; rw [ih h.2]
  · rintro rfl
    induction x with
    | nil => exact .nil
    | cons c x ih => simp at h; exact .char (Ne.symm h.1) (ih h.2)

theorem starred_cons (c : Char) (p : Str) :
    replaceAll c!"*" c!".*" (c :: p) = (if c = '*' then c!".*" else [c]) ++ replaceAll c!"*" c!".*" p := by
  unfold replaceAll
  rw [replaceAux]
  by_cases h : c = '*'
  · subst h; simp [List.isPrefixOf]
  · rw [if_neg (by simp [List.isPrefixOf, Ne.symm h]), if_neg h]; rfl

theorem starred_head (p : Str) : (replaceAll c!"*" c!".*" p).head? ≠ some '*' := by
  cases p with
  | nil => simp [replaceAll, replaceAux]
  | cons c p =>
    rw [starred_cons]
    split
    · simp
    · rename_i h; simpa using h

theorem starred_simple (p : Str) (h : ∀ c ∈ p, c = '*' ∨ plain c) : Simple (replaceAll c!"*" c!".*" p) := by
  induction p with
  | nil => exact .nil
  | cons c p ih =>
    have ih := ih fun d hd => h d (List.mem_cons_of_mem _ hd)
    rw [starred_cons]
    split
    · exact .many ih
    · rename_i hc
      exact .lit ((h c List.mem_cons_self).resolve_left hc) ih

theorem starred_match (p x : Str) (h : ∀ c ∈ p, c = '*' ∨ plain c) : RMatch (replaceAll c!"*" c!".*" p) x ↔ Glob p x := by
  induction p generalizing x with
  | nil =>
    constructor
    · intro hm
      have : replaceAll c!"*" c!".*" [] = [] := rfl
      rw [this] at hm
      cases hm
      exact .nil
    · intro hg
      cases hg
      exact .nil
  | cons c p ih =>
    have ih := fun x => ih x fun d hd => h d (List.mem_cons_of_mem _ hd)
    have hdot : ¬ plain '.' := by decide
    rw [starred_cons]
    by_cases hc : c = '*'
    · subst hc
      rw [if_pos rfl]
      constructor
      · intro hm
        cases hm with
        | many hu rest => exact .star hu ((ih _).1 rest)
        | any hp => simp at hp
        | lit hp => exact absurd hp hdot
      · intro hg
        cases hg with
        | star hu rest => exact .many hu ((ih _).2 rest)
        | char hn => exact absurd rfl hn
    · rw [if_neg hc]
      have hpl := (h c List.mem_cons_self).resolve_left hc
      constructor
      · intro hm
        show Glob (c :: p) x
        generalize he : [c] ++ replaceAll c!"*" c!".*" p = e at hm
        cases hm with
        | nil => simp at he
        | many hu rest => simp at he; exact absurd (he.1 ▸ hpl) hdot
        | any hp hn rest => simp at he; exact absurd (he.1 ▸ hpl) hdot
        | lit hp rest =>
          simp at he
          obtain ⟨rfl, rfl⟩ := he
          exact .char hc ((ih _).1 rest)
      · intro hg
        cases hg with
        | star => exact absurd rfl hc
        | char _ rest => exact .lit hpl ((ih _).2 rest)

/-- Adding what a test accepts and is not there yet. -/
theorem gather_spec (f : Str → Bool) (available found : List Str) (hn : available.Nodup) :
    available.foldl (fun l x => if f x && !l.contains x then l ++ [x] else l) found =
      found ++ available.filter fun x => f x && !found.contains x := by
  induction available generalizing found with
  | nil => simp
  | cons x l ih =>
    have hn' := List.nodup_cons.1 hn
    rw [List.foldl_cons]
    split
    · rename_i hx
      rw [ih _ hn'.2, List.filter_cons_of_pos (p := fun x => f x && !found.contains x) hx, List.append_assoc]
      congr 1
      rw [List.singleton_append]
      congr 1
      refine List.filter_congr fun y hy => ?_
      have : y ≠ x := fun e => hn'.1 (e ▸ hy)
      simp [this]
    · rename_i hx
      rw [ih _ hn'.2, List.filter_cons_of_neg (p := fun x => f x && !found.contains x) hx]

/-- What one pattern adds. -/
theorem select_spec {regex : Str → Option (Str → Bool)} {wrap : Str → Str} {m : Str → Str → Prop} {available : List Str}
    {p : Str} (hn : available.Nodup) (hex : '*' ∉ p → ∀ x, m p x ↔ x = p)
    (hre : '*' ∈ p → ∃ f, regex (wrap (replaceAll c!"*" c!".*" p)) = some f ∧ ∀ s, f s = true ↔ m p s) (found : List Str) :
    ∃ part, select regex wrap available found p = some (found ++ part) ∧ part.Sublist available ∧
      ∀ x, x ∈ part ↔ x ∈ available ∧ m p x ∧ x ∉ found := by
  unfold select
  by_cases hs : '*' ∈ p
  · rw [if_pos (by simpa using hs)]
    obtain ⟨f, hf, hfm⟩ := hre hs
    rw [hf]
    refine ⟨available.filter fun x => f x && !found.contains x, ?_, List.filter_sublist, fun x => ?_⟩
    · dsimp only
      rw [gather_spec _ _ _ hn]
    · simp [List.mem_filter, hfm]
  · rw [if_neg (by simpa using hs)]
    have hex := hex hs
    split
    · rename_i hc
      simp only [Bool.and_eq_true, List.contains_iff_mem, Bool.not_eq_true', List.contains_eq_mem, decide_eq_false_iff_not,
        decide_eq_true_eq] at hc
      refine ⟨[p], rfl, by simpa using hc.1, fun x => ?_⟩
      rw [List.mem_singleton, hex]
      constructor
      · rintro rfl; exact ⟨hc.1, rfl, hc.2⟩
      · exact fun h => h.2.1
    · rename_i hc
      refine ⟨[], by simp, List.nil_sublist _, fun x => ?_⟩
      simp only [List.not_mem_nil, false_iff, hex]
      rintro ⟨h1, rfl, h2⟩
      exact hc (by simp [h1, h2])

theorem requested_spec {regex : Str → Option (Str → Bool)} {wrap : Str → Str} {m : Str → Str → Prop} {available : List Str}
    (hn : available.Nodup) (patterns : List Str) (hex : ∀ p ∈ patterns, '*' ∉ p → ∀ x, m p x ↔ x = p)
    (hre : ∀ p ∈ patterns, '*' ∈ p → ∃ f, regex (wrap (replaceAll c!"*" c!".*" p)) = some f ∧ ∀ s, f s = true ↔ m p s)
    (found : List Str) :
    ∃ parts : List (List Str), patterns.foldlM (select regex wrap available) found = some (found ++ parts.flatten) ∧
      parts.length = patterns.length ∧ ∀ (i : Nat) part, parts[i]? = some part → part.Sublist available ∧
        ∀ x, x ∈ part ↔ x ∈ available ∧ FirstMatch m patterns i x ∧ x ∉ found := by
  induction patterns generalizing found with
  | nil => exact ⟨[], by simp, rfl, by simp⟩
  | cons p patterns ih =>
    obtain ⟨part, h1, h2, h3⟩ := select_spec hn (hex p List.mem_cons_self) (hre p List.mem_cons_self) found
    obtain ⟨parts, h4, h5, h6⟩ := ih (fun q hq => hex q (List.mem_cons_of_mem _ hq)) (fun q hq => hre q (List.mem_cons_of_mem _ hq))
      (found ++ part)
    refine ⟨part :: parts, ?_, by simp [h5], ?_⟩
    · rw [List.foldlM_cons, h1]
      show List.foldlM _ _ _ = _
      rw [h4]
      simp
    · intro i part' hi
      cases i with
      | zero =>
        simp only [List.getElem?_cons_zero, Option.some.injEq] at hi
        subst hi
        refine ⟨h2, fun x => ?_⟩
        rw [h3]
        simp [FirstMatch]
      | succ i =>
        rw [List.getElem?_cons_succ] at hi
        obtain ⟨h7, h8⟩ := h6 i part' hi
        refine ⟨h7, fun x => ?_⟩
        rw [h8]
        have hfm : FirstMatch m (p :: patterns) (i + 1) x ↔ FirstMatch m patterns i x ∧ ¬ m p x := by
          unfold FirstMatch
          constructor
          · rintro ⟨h, hj⟩
            refine ⟨⟨by simpa using h, fun j q hj' hq => hj (j + 1) q (by omega) (by simpa using hq)⟩, hj 0 p (by omega) (by simp)⟩
          · rintro ⟨⟨h, hj⟩, hp⟩
            refine ⟨by simpa using h, fun j q hj' hq => ?_⟩
            cases j with
            | zero => simp at hq; exact hq ▸ hp
            | succ j => exact hj j q (by omega) (by simpa using hq)
        rw [hfm]
        constructor
        · rintro ⟨ha, hf, hnf⟩
          simp only [List.mem_append, not_or] at hnf
          refine ⟨ha, ⟨hf, fun hm => hnf.2 ((h3 x).2 ⟨ha, hm, hnf.1⟩)⟩, hnf.1⟩
        · rintro ⟨ha, ⟨hf, hm⟩, hnf⟩
          refine ⟨ha, hf, ?_⟩
          simp only [List.mem_append, not_or]
          exact ⟨hnf, fun h => hm ((h3 x).1 h).2.1⟩

theorem names_nodup {tests : List (Str × Str)} (h : (mkeys tests).Nodup) : (names tests).Nodup :=
  (SearchLemmas.sortStr_perm _).nodup_iff.2 h

theorem names_ascending {tests : List (Str × Str)} (h : (mkeys tests).Nodup) : Ascending (names tests) :=
  SearchLemmas.ascending_of (SearchLemmas.sortStr_sorted _) (names_nodup h)

theorem mem_names {tests : List (Str × Str)} {x : Str} : x ∈ names tests ↔ x ∈ mkeys tests :=
  (SearchLemmas.sortStr_perm _).mem_iff

/-- Both selections, in one form. -/
theorem chosen {regex : Str → Option (Str → Bool)} {wrap : Str → Str} {m : Str → Str → Prop} (tests : List (Str × Str))
    (hn : (mkeys tests).Nodup) (patterns : List Str) (hne : patterns ≠ []) (hex : ∀ p ∈ patterns, '*' ∉ p → ∀ x, m p x ↔ x = p)
    (hre : ∀ p ∈ patterns, '*' ∈ p → ∃ f, regex (wrap (replaceAll c!"*" c!".*" p)) = some f ∧ ∀ s, f s = true ↔ m p s) :
    ∃ parts : List (List Str), requested regex wrap tests patterns = some parts.flatten ∧ parts.length = patterns.length ∧
      parts.flatten.Nodup ∧
      ∀ (i : Nat) part, parts[i]? = some part → Ascending part ∧ ∀ x, x ∈ part ↔ x ∈ mkeys tests ∧ FirstMatch m patterns i x := by
  obtain ⟨parts, h1, h2, h3⟩ := requested_spec (names_nodup hn) patterns hex hre []
  have h3' : ∀ (i : Nat) part, parts[i]? = some part → part.Sublist (names tests) ∧
      ∀ x, x ∈ part ↔ x ∈ mkeys tests ∧ FirstMatch m patterns i x := by
    intro i part hi
    refine ⟨(h3 i part hi).1, fun x => ?_⟩
    rw [(h3 i part hi).2, mem_names]
    simp
  refine ⟨parts, ?_, h2, ?_, fun i part hi => ⟨(names_ascending hn).sublist (h3' i part hi).1, (h3' i part hi).2⟩⟩
  · unfold requested
    rw [if_neg (by simpa using hne), h1]
    rfl
  · rw [List.nodup_flatten]
    refine ⟨fun l hl => ?_, ?_⟩
    · obtain ⟨i, hi⟩ := List.mem_iff_getElem?.1 hl
      exact (names_nodup hn).sublist (h3' i l hi).1
    · rw [List.pairwise_iff_getElem]
      intro i j hi hj hij x hx hy
      have h4 := ((h3' i _ (List.getElem?_eq_getElem hi)).2 x).1 hx
      have h5 := ((h3' j _ (List.getElem?_eq_getElem hj)).2 x).1 hy
      obtain ⟨⟨p, hp, hm⟩, _⟩ := h4.2
      exact h5.2.2 i p hij hp hm

end TestLemmas
open TestLemmas

/-! ## C167: which tests are run -/

/-- C167: without names, all tests are run, in the order of their names. -/
theorem C167_all (regex : Str → Option (Str → Bool)) (wrap : Str → Str) (tests : List (Str × Str)) (hn : (mkeys tests).Nodup) :
    ∃ l, requested regex wrap tests [] = some l ∧ Ascending l ∧ ∀ x, x ∈ l ↔ x ∈ mkeys tests :=
  ⟨names tests, rfl, names_ascending hn, fun _ => mem_names⟩

/-- C167, the library: with names and patterns, exactly the tests that match one of them are run, each once; they are
ordered by the first pattern that they match, and then by name. -/
theorem C167_library (regex : Str → Option (Str → Bool)) (hr : RegexOk regex) (tests : List (Str × Str)) (hn : (mkeys tests).Nodup)
    (patterns : List Str) (hne : patterns ≠ []) (hp : ∀ p ∈ patterns, Ordinary p) :
    ∃ parts : List (List Str), requested regex anchored tests patterns = some parts.flatten ∧ parts.length = patterns.length ∧
      parts.flatten.Nodup ∧
      ∀ (i : Nat) part, parts[i]? = some part → Ascending part ∧ ∀ x, x ∈ part ↔ x ∈ mkeys tests ∧ FirstMatch Glob patterns i x := by
  refine chosen tests hn patterns hne (fun p _ hs x => glob_exact hs) fun p hp' hs => ?_
  obtain ⟨f, h1, h2⟩ := hr.whole _ (starred_simple p (hp p hp' hs))
  exact ⟨f, h1, fun s => (h2 s).trans (starred_match p s (hp p hp' hs))⟩

/-- What the patterns of the command mean: with a star, a part of the name may match. -/
def Loose (p x : Str) : Prop := if '*' ∈ p then ∃ a b c, x = a ++ b ++ c ∧ Glob p b else x = p

/-- C167, the command: a pattern with a star also chooses the tests of whose name only a part matches. -/
theorem C167_command (regex : Str → Option (Str → Bool)) (hr : RegexOk regex) (tests : List (Str × Str)) (hn : (mkeys tests).Nodup)
    (patterns : List Str) (hne : patterns ≠ []) (hp : ∀ p ∈ patterns, Ordinary p) :
    ∃ parts : List (List Str), requested regex id tests patterns = some parts.flatten ∧ parts.length = patterns.length ∧
      parts.flatten.Nodup ∧
      ∀ (i : Nat) part, parts[i]? = some part → Ascending part ∧ ∀ x, x ∈ part ↔ x ∈ mkeys tests ∧ FirstMatch Loose patterns i x := by
  refine chosen tests hn patterns hne (fun p _ hs x => by rw [Loose, if_neg hs]) fun p hp' hs => ?_
  obtain ⟨f, h1, h2⟩ := hr.part _ (starred_simple p (hp p hp' hs))
  refine ⟨f, h1, fun s => ?_⟩
  rw [h2, Loose, if_pos hs]
  simp only [starred_match p _ (hp p hp' hs)]

/-- C167 is false of the command: `test_*` also runs `my_test_a`. -/
theorem C167_command_false (regex : Str → Option (Str → Bool)) (hr : RegexOk regex) :
    ¬ ∀ (tests : List (Str × Str)) (patterns : List Str) (l : List Str) (x : Str), (mkeys tests).Nodup → patterns ≠ [] →
      requested regex id tests patterns = some l → x ∈ l → ∃ p ∈ patterns, Glob p x := by
  intro h
  have hord : ∀ p ∈ [c!"test_*"], Ordinary p := by
    intro p hp
    rw [List.mem_singleton.1 hp]
    intro _ c hc
    revert c
    decide
  obtain ⟨parts, h1, h2, _, h3⟩ := C167_command regex hr [(c!"my_test_a", c!"true")] (by decide) [c!"test_*"] (by simp) hord
  have hx : c!"my_test_a" ∈ parts.flatten := by
    have hl : 0 < parts.length := by rw [h2]; decide
    refine List.mem_flatten.2 ⟨parts[0], List.getElem_mem hl, ?_⟩
    rw [(h3 0 _ (List.getElem?_eq_getElem hl)).2]
    refine ⟨by decide, ⟨c!"test_*", rfl, ?_⟩, fun j p hj => absurd hj (Nat.not_lt_zero j)⟩
    rw [Loose, if_pos (by decide)]
    refine ⟨c!"my_", c!"test_a", [], rfl, ?_⟩
    exact .char (by decide) (.char (by decide) (.char (by decide) (.char (by decide) (.char (by decide)
      (.star (u := c!"a") (s := []) (by decide) .nil)))))
  obtain ⟨p, hp, hg⟩ := h _ [c!"test_*"] _ _ (by decide) (by simp) h1 hx
  rw [List.mem_singleton.1 hp] at hg
  cases hg

/-- C167 is false of patterns with other characters: with a star in the pattern, a dot stands for any character. -/
theorem C167_dot_false (regex : Str → Option (Str → Bool)) (hr : RegexOk regex) :
    ¬ ∀ (tests : List (Str × Str)) (patterns : List Str) (l : List Str) (x : Str), (mkeys tests).Nodup → patterns ≠ [] →
      requested regex anchored tests patterns = some l → x ∈ l → ∃ p ∈ patterns, Glob p x := by
  intro h
  obtain ⟨f, h1, h2⟩ := hr.whole c!"a..*" (.lit (by decide) (.any (by decide) (.many .nil)))
  have hreq : requested regex anchored [(c!"abc", c!"true")] [c!"a.*"] = some [c!"abc"] := by
    have hm : f c!"abc" = true := (h2 _).2 (.lit (by decide) (.any (by decide) (by decide) (.many (u := c!"c") (s := []) (by decide) .nil)))
    have hrw : anchored (replaceAll c!"*" c!".*" c!"a.*") = c!"^" ++ c!"a..*" ++ c!"$" := by decide
    have hsel : select regex anchored [c!"abc"] [] c!"a.*" = some [c!"abc"] := by
      unfold select
      rw [if_pos (by decide), hrw, h1]
      simp [hm]
    show (select regex anchored [c!"abc"] [] c!"a.*").bind _ = _
    rw [hsel]
    rfl
  obtain ⟨p, hp, hg⟩ := h _ [c!"a.*"] _ c!"abc" (by decide) (by simp) hreq (by simp)
  rw [List.mem_singleton.1 hp] at hg
  cases hg with
  | char _ rest =>
    generalize he : c!".*" = e at rest
    generalize hs : c!"bc" = s at rest
    cases rest with
    | nil => simp at he
    | star => simp at he
    | char _ _ => simp at he hs; rw [← he.1] at hs; simp at hs

open Classical in
/-- A regular expression library that does just this. -/
noncomputable def someRegex (e : Str) : Option (Str → Bool) :=
  if h : ∃ x, Simple x ∧ e = c!"^" ++ x ++ c!"$" then some fun s => decide (RMatch h.choose s)
  else some fun s => decide (∃ a b c, s = a ++ b ++ c ∧ RMatch e b)

/-- There is such a library. -/
theorem someRegex_ok : RegexOk someRegex := by
  constructor
  · intro e he
    have hno : ¬ ∃ x, Simple x ∧ e = c!"^" ++ x ++ c!"$" := by
      rintro ⟨x, _, rfl⟩
      generalize hy : c!"^" ++ x ++ c!"$" = y at he
      cases he with
      | nil => simp at hy
      | many => simp at hy
      | any => simp at hy
      | lit hc => simp at hy; rw [← hy.1] at hc; revert hc; decide
    refine ⟨_, dif_neg hno, fun s => ?_⟩
    simp
  · intro e he
    have hyes : ∃ x, Simple x ∧ c!"^" ++ e ++ c!"$" = c!"^" ++ x ++ c!"$" := ⟨e, he, rfl⟩
    refine ⟨_, dif_pos hyes, fun s => ?_⟩
    have : hyes.choose = e := by
      have := hyes.choose_spec.2
      simpa using this.symm
    rw [this]
    simp

example : requested someRegex anchored [(c!"unit", c!"x"), (c!"lint", c!"y")] [c!"unit", c!"nothing"] = some [c!"unit"] := by
  rfl

/-! ## C168: results -/

namespace TestLemmas

theorem judge_zero (x : Option (Option Int)) : (judge x).2 = 0 ↔ Passed x := by
  unfold judge Passed
  rcases x with _ | _ | c
  · simp
  · simp
  · dsimp only
    split
    · simp_all
    · simp_all

theorem judge_status (x : Option (Option Int)) :
    ((judge x).1 = .success ↔ Passed x) ∧ (judge x).1 ≠ .skipped ∧ ((judge x).1 = .error ↔ x = none) := by
  unfold judge Passed
  rcases x with _ | _ | c
  · simp
  · simp
  · dsimp only
    split
    · simp_all
    · simp_all

/-- A result that is good, or one that is not. -/
def Sound (r : Result) : Prop := r.code = 0 ↔ (r.status = .success ∨ r.status = .skipped)

theorem judge_sound (n : Str) (x : Option (Option Int)) : Sound ⟨n, (judge x).1, (judge x).2⟩ := by
  unfold Sound
  rw [judge_zero]
  have := judge_status x
  simp [this.1, this.2.1]

theorem runTest_spec (w : World) (a : Args) (r : Runner) (before : List Start) (n : Str) :
    (runTest w a r before n).1.name = n ∧ Sound (runTest w a r before n).1 := by
  unfold runTest
  split
  · simp [Sound]
  · split
    · simp [Sound]
    · exact ⟨rfl, judge_sound _ _⟩

theorem runAll_sound (w : World) (a : Args) (r : Runner) (before : List Start) (l : List Str) :
    ∀ x ∈ (runAll w a r before l).1, Sound x := by
  induction l generalizing before with
  | nil => simp [runAll]
  | cons n l ih =>
    unfold runAll
    dsimp only
    split
    · intro x hx
      rw [List.mem_singleton.1 hx]
      exact (runTest_spec w a r before n).2
    · intro x hx
      rcases List.mem_cons.1 hx with rfl | hx
      · exact (runTest_spec w a r before n).2
      · exact ih _ x hx

/-- The names of the results: those asked for, up to the first failure if it stops there. -/
theorem runAll_names (w : World) (a : Args) (r : Runner) (before : List Start) (l : List Str) :
    (runAll w a r before l).1.map (·.name) <+: l ∧
    ((a.stopOnFail = false ∨ ∀ x ∈ (runAll w a r before l).1, x.code = 0) → (runAll w a r before l).1.map (·.name) = l) ∧
    (a.stopOnFail = true → ∀ x ∈ (runAll w a r before l).1.dropLast, x.code = 0) := by
  induction l generalizing before with
  | nil => simp [runAll]
  | cons n l ih =>
    unfold runAll
    dsimp only
    have hn := (runTest_spec w a r before n).1
    split
    · rename_i hs
      simp only [Bool.and_eq_true, bne_iff_ne, ne_eq] at hs
      refine ⟨by simp [hn], fun h => ?_, fun _ => by simp⟩
      rcases h with h | h
      · rw [h] at hs; exact absurd hs.1 (by simp)
      · exact absurd (h _ List.mem_cons_self) hs.2
    · rename_i hs
      obtain ⟨h1, h2, h3⟩ := ih (before ++ (runTest w a r before n).2)
      refine ⟨by simpa [hn] using h1, fun h => ?_, fun h => ?_⟩
      · rw [List.map_cons, hn, h2 (h.imp_right fun h x hx => h x (List.mem_cons_of_mem _ hx))]
      · intro x hx
        have hz : (runTest w a r before n).1.code = 0 := by
          by_contra hc
          exact hs (by simp [h, hc])
        cases hl : (runAll w a r (before ++ (runTest w a r before n).2) l).1 with
        | nil => rw [hl] at hx; simp at hx
        | cons y ys =>
          rw [hl, List.dropLast_cons_of_ne_nil (by simp)] at hx
          rcases List.mem_cons.1 hx with rfl | hx
          · exact hz
          · exact h3 h x (by rw [hl]; exact hx)

/-- The programs of the results. -/
theorem runAll_starts (w : World) (a : Args) (r : Runner) (before : List Start) (l : List Str) (hs : r.skip = false)
    (hd : a.dryRun = false) (hl : ∀ n ∈ l, n ∈ mkeys r.tests) :
    ∃ starts, (runAll w a r before l).2 = before ++ starts ∧ starts.length = (runAll w a r before l).1.length ∧
      ∀ (i : Nat) x, (runAll w a r before l).1[i]? = some x → ∃ c, mget r.tests x.name = some c ∧
        starts[i]? = some (shell r c) ∧
        x = ⟨x.name, (judge (w.exec (before ++ starts.take i) (shell r c))).1, (judge (w.exec (before ++ starts.take i) (shell r c))).2⟩ := by
  induction l generalizing before with
  | nil => exact ⟨[], by simp [runAll], by simp [runAll], by simp [runAll]⟩
  | cons n l ih =>
    have hl' : ∀ n ∈ l, n ∈ mkeys r.tests := fun m hm => hl m (List.mem_cons_of_mem _ hm)
    obtain ⟨c, hc⟩ : ∃ c, mget r.tests n = some c := by
      cases hg : mget r.tests n with
      | none => exact absurd (hl n List.mem_cons_self) ((mget_none_iff _ _).1 hg)
      | some c => exact ⟨c, rfl⟩
    have ht : runTest w a r before n = (⟨n, (judge (w.exec before (shell r c))).1, (judge (w.exec before (shell r c))).2⟩, [shell r c]) := by
      unfold runTest
      rw [hs, hd, hc]
      rfl
    unfold runAll
    rw [ht]
    dsimp only
    split
    · refine ⟨[shell r c], rfl, rfl, fun i x hi => ?_⟩
      cases i with
      | zero =>
        simp only [List.getElem?_cons_zero, Option.some.injEq] at hi
        subst hi
        exact ⟨c, hc, rfl, by simp⟩
      | succ i => simp at hi
    · obtain ⟨starts, h1, h2, h3⟩ := ih (before ++ [shell r c]) hl'
      refine ⟨shell r c :: starts, by rw [h1]; simp, by simp [h2], fun i x hi => ?_⟩
      cases i with
      | zero =>
        simp only [List.getElem?_cons_zero, Option.some.injEq] at hi
        subst hi
        exact ⟨c, hc, rfl, by simp⟩
      | succ i =>
        rw [List.getElem?_cons_succ] at hi
        obtain ⟨c', h4, h5, h6⟩ := h3 i x hi
        refine ⟨c', h4, by simpa using h5, ?_⟩
        simpa using h6

theorem exitCode_spec (l : List Result) (k : Int) :
    l.foldl (fun c r => if r.code ≠ 0 ∧ c = 0 then r.code else c) k =
      if k = 0 then ((l.find? fun r => r.code ≠ 0).map (·.code)).getD 0 else k := by
  induction l generalizing k with
  | nil => simp
  | cons r l ih =>
    rw [List.foldl_cons, ih]
    by_cases hk : k = 0
    · subst hk
      by_cases hr : r.code = 0
      · simp [hr]
      · simp [hr]
    · simp [hk]

theorem requested_known {regex : Str → Option (Str → Bool)} {wrap : Str → Str} {tests : List (Str × Str)} {patterns l : List Str}
    (h : requested regex wrap tests patterns = some l) : ∀ n ∈ l, n ∈ mkeys tests := by
  have hsel : ∀ found p l', (∀ n ∈ found, n ∈ mkeys tests) → select regex wrap (names tests) found p = some l' → ∀ n ∈ l', n ∈ mkeys tests := by
    intro found p l' hf hs
    unfold select at hs
    split at hs
    · split at hs
      · cases hs
      · rename_i f _
        simp only [Option.some.injEq] at hs
        subst hs
        have : ∀ (av : List Str) (acc : List Str), (∀ n ∈ av, n ∈ mkeys tests) → (∀ n ∈ acc, n ∈ mkeys tests) →
            ∀ n ∈ av.foldl (fun l x => if f x && !l.contains x then l ++ [x] else l) acc, n ∈ mkeys tests := by
          intro av
          induction av with
          | nil => exact fun acc _ h => h
          | cons x av ih =>
            intro acc h1 h2
            rw [List.foldl_cons]
            refine ih _ (fun n hn => h1 n (List.mem_cons_of_mem _ hn)) ?_
            split
            · intro n hn
              rcases List.mem_append.1 hn with hn | hn
              · exact h2 n hn
              · rw [List.mem_singleton.1 hn]; exact h1 x List.mem_cons_self
            · exact h2
        exact this _ _ (fun n hn => mem_names.1 hn) hf
    · split at hs
      · rename_i hc
        simp only [Option.some.injEq] at hs
        subst hs
        intro n hn
        rcases List.mem_append.1 hn with hn | hn
        · exact hf n hn
        · rw [List.mem_singleton.1 hn]
          simp only [Bool.and_eq_true, List.contains_iff_mem] at hc
          exact mem_names.1 hc.1
      · simp only [Option.some.injEq] at hs
        subst hs
        exact hf
  unfold requested at h
  split at h
  · simp only [Option.some.injEq] at h
    subst h
    exact fun n hn => mem_names.1 hn
  · have : ∀ (ps : List Str) (acc l' : List Str), (∀ n ∈ acc, n ∈ mkeys tests) →
        ps.foldlM (select regex wrap (names tests)) acc = some l' → ∀ n ∈ l', n ∈ mkeys tests := by
      intro ps
      induction ps with
      | nil => intro acc l' h1 h2; simp at h2; subst h2; exact h1
      | cons p ps ih =>
        intro acc l' h1 h2
        rw [List.foldlM_cons] at h2
        cases hs : select regex wrap (names tests) acc p with
        | none => rw [hs] at h2; cases h2
        | some m => rw [hs] at h2; exact ih m l' (hsel _ _ _ h1 hs) h2
    exact this patterns [] l (by simp) h

/-- A run of the command. -/
theorem ran_iff {w : World} {a : Args} {sum : Summary} {code : Int} {results : List Result} {starts : List Start}
    (h : execute w a = .ran sum code results starts) :
    ∃ r l, load w a = some r ∧ requested w.regex id r.tests a.tests = some l ∧ l ≠ [] ∧ a.list = false ∧
      results = (runAll w a r [] l).1 ∧ starts = (runAll w a r [] l).2 ∧ sum = summary results ∧ code = exitCode results := by
  unfold execute at h
  split at h
  · cases h
  cases hl : load w a with
  | none => rw [hl] at h; cases h
  | some r =>
    rw [hl] at h
    dsimp only at h
    split at h
    · cases h
    split at h
    · cases h
    rename_i hlist
    cases hr : requested w.regex id r.tests a.tests with
    | none => rw [hr] at h; cases h
    | some l =>
      rw [hr] at h
      cases l with
      | nil => cases h
      | cons n l =>
        simp only [End.ran.injEq] at h
        obtain ⟨h1, h2, h3, h4⟩ := h
        refine ⟨r, n :: l, rfl, hr, by simp, by simpa using hlist, h3.symm, h4.symm, ?_, ?_⟩
        · rw [← h1, ← h3]
        · rw [← h2, ← h3]

end TestLemmas
open TestLemmas

/-- C168: the command runs the tests asked for in their order: all of them, or with `--stop-on-fail` up to the first that
fails. -/
theorem C168_order (w : World) (a : Args) (sum : Summary) (code : Int) (results : List Result) (starts : List Start)
    (h : execute w a = .ran sum code results starts) :
    ∃ r l, load w a = some r ∧ requested w.regex id r.tests a.tests = some l ∧ results.map (·.name) <+: l ∧
      ((a.stopOnFail = false ∨ code = 0) → results.map (·.name) = l) ∧
      (a.stopOnFail = true → ∀ x ∈ results.dropLast, x.code = 0) := by
  obtain ⟨r, l, h1, h2, _, _, rfl, _, _, h4⟩ := ran_iff h
  obtain ⟨h5, h6, h7⟩ := runAll_names w a r [] l
  refine ⟨r, l, h1, h2, h5, fun hc => h6 (hc.imp_right fun hc => ?_), h7⟩
  subst h4
  unfold exitCode at hc
  rw [exitCode_spec, if_pos rfl] at hc
  intro x hx
  by_contra hn
  cases hf : (runAll w a r [] l).1.find? fun r => r.code ≠ 0 with
  | none => exact (List.find?_eq_none.1 hf x hx) (by simpa using hn)
  | some y =>
    rw [hf] at hc
    have hy : y.code ≠ 0 := by simpa using List.find?_some hf
    exact hy hc

/-- C168: a test is a shell command, run in the directory and with the variables of the runner, and its result is what
that program ended with. -/
theorem C168_results (w : World) (a : Args) (sum : Summary) (code : Int) (results : List Result) (starts : List Start)
    (h : execute w a = .ran sum code results starts) (hd : a.dryRun = false) (r : Runner) (hr : load w a = some r)
    (hs : r.skip = false) :
    starts.length = results.length ∧
    ∀ (i : Nat) x, results[i]? = some x → ∃ command s, mget r.tests x.name = some command ∧ starts[i]? = some s ∧
      s = ⟨r.dir, c!"sh", [c!"-c", command], r.env⟩ ∧
      (x.status = .success ↔ w.exec (starts.take i) s = some (some 0)) ∧ (x.code = 0 ↔ w.exec (starts.take i) s = some (some 0)) ∧
      (x.status = .error ↔ w.exec (starts.take i) s = none) ∧ x.status ≠ .skipped ∧
      ∀ c, w.exec (starts.take i) s = some (some c) → x.code = c := by
  obtain ⟨r', l, h1, h2, _, _, rfl, rfl, _, _⟩ := ran_iff h
  rw [hr] at h1
  cases h1
  obtain ⟨st, h3, h4, h5⟩ := runAll_starts w a r [] l hs hd (requested_known h2)
  rw [List.nil_append] at h3
  rw [h3]
  refine ⟨h4, fun i x hx => ?_⟩
  obtain ⟨c, h6, h7, h8⟩ := h5 i x hx
  rw [List.nil_append] at h8
  refine ⟨c, _, h6, h7, rfl, ?_⟩
  obtain ⟨j1, j2, j3⟩ := judge_status (w.exec (st.take i) (shell r c))
  rw [h8]
  refine ⟨j1, judge_zero _, j3, j2, fun k hk => ?_⟩
  have hk : w.exec (st.take i) (shell r c) = some (some k) := hk
  show (judge _).2 = k
  rw [hk]
  unfold judge
  dsimp only
  split
  · rename_i h0; exact h0.symm
  · rfl

/-- C168: the command ends with 0 exactly if no test that it ran failed, and otherwise with the code of the first that
did. -/
theorem C168_code (w : World) (a : Args) (sum : Summary) (code : Int) (results : List Result) (starts : List Start)
    (h : execute w a = .ran sum code results starts) :
    (code = 0 ↔ ∀ x ∈ results, x.status = .success ∨ x.status = .skipped) ∧
    (code ≠ 0 → ∃ pre x post, results = pre ++ x :: post ∧ x.code = code ∧ ∀ y ∈ pre, y.code = 0) := by
  obtain ⟨r, l, _, _, _, _, rfl, _, _, rfl⟩ := ran_iff h
  unfold exitCode
  rw [exitCode_spec, if_pos rfl]
  have hsound := runAll_sound w a r [] l
  cases hf : (runAll w a r [] l).1.find? fun r => r.code ≠ 0 with
  | none =>
    rw [List.find?_eq_none] at hf
    refine ⟨⟨fun _ x hx => (hsound x hx).1 (by simpa using hf x hx), fun _ => rfl⟩, fun h => absurd rfl h⟩
  | some y =>
    obtain ⟨h1, pre, post, h2, h3⟩ := List.find?_eq_some_iff_append.1 hf
    simp only [decide_eq_true_eq, ne_eq] at h1
    have hy : y ∈ (runAll w a r [] l).1 := List.mem_of_find?_eq_some hf
    refine ⟨⟨fun h => absurd h h1, fun h => absurd ((hsound y hy).2 (h y hy)) h1⟩, fun _ => ⟨pre, y, post, h2, rfl, fun z hz => ?_⟩⟩
    simpa using h3 z hz

/-- C168: the summary counts each result once, and says that tests failed exactly if the command ends with a code that is
not 0. -/
theorem C168_summary (w : World) (a : Args) (sum : Summary) (code : Int) (results : List Result) (starts : List Start)
    (h : execute w a = .ran sum code results starts) :
    sum.total = results.length ∧ sum.passed + sum.failed + sum.errors + sum.skipped = sum.total ∧
    sum.passed = results.countP (·.status = .success) ∧ sum.skipped = results.countP (·.status = .skipped) ∧
    sum.note = some (if code = 0 then c!"All tests passed!" else c!"Some tests failed!") := by
  have hcode := (C168_code w a sum code results starts h).1
  obtain ⟨r, l, _, _, hne, _, hres, _, rfl, _⟩ := ran_iff h
  have hlen : 0 < results.length := by
    rw [hres]
    cases l with
    | nil => exact absurd rfl hne
    | cons n l =>
      unfold runAll
      dsimp only
      split <;> simp
  refine ⟨rfl, ?_, by simp [summary, List.countP_eq_length_filter], by simp [summary, List.countP_eq_length_filter], ?_⟩
  · unfold summary
    dsimp only
    have hcount : ∀ l : List Result, (l.filter fun r => r.status = .success).length + (l.filter fun r => r.status = .failed).length +
        (l.filter fun r => r.status = .error).length + (l.filter fun r => r.status = .skipped).length = l.length := by
      intro l
      induction l with
      | nil => rfl
      | cons x xs ih =>
        have hx : x.status = .success ∨ x.status = .failed ∨ x.status = .error ∨ x.status = .skipped := by
          cases x.status <;> simp
        rcases hx with hx | hx | hx | hx <;> simp [hx] <;> omega
    exact hcount results
  · unfold summary
    dsimp only
    have : (decide ((results.filter fun r => r.status = .failed).length > 0) || decide ((results.filter fun r => r.status = .error).length > 0)) = true ↔ code ≠ 0 := by
      rw [ne_eq, hcode]
      simp only [Bool.or_eq_true, decide_eq_true_eq, gt_iff_lt, List.length_pos_iff_exists_mem, List.mem_filter]
      constructor
      · rintro (⟨x, hx, hs⟩ | ⟨x, hx, hs⟩) hall <;> rcases hall x hx with h | h <;> rw [h] at hs <;> cases hs
      · intro hall
        simp only [not_forall, not_or] at hall
        obtain ⟨x, hx, h1, h2⟩ := hall
        cases hst : x.status with
        | success => exact absurd hst h1
        | skipped => exact absurd hst h2
        | failed => exact Or.inl ⟨x, hx, hst⟩
        | error => exact Or.inr ⟨x, hx, hst⟩
    by_cases hc : code = 0
    · rw [if_neg (fun h => (this.1 h) hc), if_pos (by simpa using hlen), if_pos hc]
    · rw [if_pos (this.2 hc), if_neg hc]

/-- C168: a dry run starts nothing. -/
theorem C168_dry (w : World) (a : Args) (sum : Summary) (code : Int) (results : List Result) (starts : List Start)
    (h : execute w a = .ran sum code results starts) (hd : a.dryRun = true) :
    starts = [] ∧ ∀ x ∈ results, x.status = .skipped := by
  obtain ⟨r, l, _, _, _, _, rfl, rfl, _, _⟩ := ran_iff h
  have : ∀ (l : List Str), (runAll w a r [] l).2 = [] ∧ ∀ x ∈ (runAll w a r [] l).1, x.status = .skipped := by
    intro l
    induction l with
    | nil => simp [runAll]
    | cons n l ih =>
      have ht : runTest w a r [] n = (⟨n, .skipped, 0⟩, []) := by
        unfold runTest
        rw [hd]
        simp
      unfold runAll
      rw [ht]
      simpa using ih
  exact this l

/-- A package with two tests in the working directory, of which the second fails. -/
def testPkg : Pkg := ⟨c!"foo", some c!"1.0", [], [], [(c!"b", c!"false"), (c!"a", c!"true")], none, none⟩

def testWorld : World :=
  { cwd := c!"/w", configured := [c!"/repo"], localPath := c!"~/packages", home := id
    packageFile := fun d => if d = c!"/w" then some (some testPkg) else none
    versions := fun _ _ => none, versionDir := fun s p v => s ++ c!"/" ++ p ++ c!"/" ++ v
    parses := fun _ => true, solve := fun _ _ => some [], generate := fun _ => some [(c!"X", c!"1")]
    vars := [], isDir := fun _ => true, regex := fun _ => none
    exec := fun _ s => some (some (if s.args = [c!"-c", c!"true"] then 0 else 2)) }

def testArgs : Args := ⟨c!"foo", [], false, false, [], none, false, false, false, none⟩

example : execute testWorld testArgs = .ran ⟨2, 1, 1, 0, 0, some c!"Some tests failed!"⟩ 2
    [⟨c!"a", .success, 0⟩, ⟨c!"b", .failed, 2⟩]
    [⟨c!"/w", c!"sh", [c!"-c", c!"true"], some [(c!"X", c!"1")]⟩, ⟨c!"/w", c!"sh", [c!"-c", c!"false"], some [(c!"X", c!"1")]⟩] := by
  decide +kernel

/-- C168 is false of what the summary says: all tests passed, though none was run, and one of them fails. -/
theorem C168_skipped_false : ¬ ∀ (w : World) (a : Args) (sum : Summary) (code : Int) (results : List Result) (starts : List Start),
    execute w a = .ran sum code results starts → sum.note = some c!"All tests passed!" → sum.passed = sum.total := by
  intro h
  have := h testWorld { testArgs with dryRun := true } ⟨2, 0, 0, 0, 2, some c!"All tests passed!"⟩ 0
    [⟨c!"a", .skipped, 0⟩, ⟨c!"b", .skipped, 0⟩] [] (by decide +kernel) rfl
  revert this
  decide

/-- C168 is false of tests that do not exist: they are left out without a word. -/
theorem C168_missing_false : ¬ ∀ (w : World) (a : Args) (r : Runner) (n : Str), load w a = some r → n ∈ a.tests → '*' ∉ n →
    n ∉ mkeys r.tests → execute w a = .failed := by
  intro h
  have := h testWorld { testArgs with tests := [c!"c"] } ⟨c!"/w", testPkg.tests, some [(c!"X", c!"1")], false⟩ c!"c" (by rfl)
    (by decide) (by decide) (by decide)
  revert this
  decide +kernel

/-! ## C169: the package and the environment of the tests -/

/-- C169: the directories to search: the ones given, then the configured ones, without the local one if it is not wanted;
no configured one twice. -/
theorem C169_paths (w : World) (a : Args) :
    ∃ more, searchPaths w a = ((a.paths.map (splitChar ':')).getD []) ++ more ∧ more.Sublist (w.configured.map w.home) ∧ more.Nodup ∧
      (∀ p, p ∈ more → p ∉ (a.paths.map (splitChar ':')).getD []) ∧
      (∀ p ∈ w.configured.map w.home, (a.noLocal = true ∧ p = w.home w.localPath) ∨ p ∈ searchPaths w a) ∧
      (a.noLocal = true → w.home w.localPath ∉ more) := by
  unfold searchPaths
  generalize (a.paths.map (splitChar ':')).getD [] = given
  generalize w.configured.map w.home = l
  suffices hs : ∀ (more0 : List Str), more0.Nodup → (∀ p ∈ more0, p ∉ given) → (a.noLocal = true → w.home w.localPath ∉ more0) →
      ∃ more, l.foldl (fun l p => if (!a.noLocal || p != w.home w.localPath) && !l.contains p then l ++ [p] else l) (given ++ more0) =
        given ++ (more0 ++ more) ∧ more.Sublist l ∧ (more0 ++ more).Nodup ∧ (∀ p ∈ more0 ++ more, p ∉ given) ∧
        (∀ p ∈ l, (a.noLocal = true ∧ p = w.home w.localPath) ∨ p ∈ given ++ (more0 ++ more)) ∧
        (a.noLocal = true → w.home w.localPath ∉ more0 ++ more) by
    obtain ⟨more, h1, h2, h3, h4, h5, h6⟩ := hs [] List.nodup_nil (by simp) (by simp)
    rw [List.append_nil, List.nil_append] at h1
    rw [h1]
    exact ⟨more, rfl, h2, by simpa using h3, by simpa using h4, by simpa using h5, by simpa using h6⟩
  induction l with
  | nil => intro more0 h1 h2 h3; exact ⟨[], by simp, .refl _, by simpa using h1, by simpa using h2, by simp, by simpa using h3⟩
  | cons p l ih =>
    intro more0 h1 h2 h3
    rw [List.foldl_cons]
    split
    · rename_i hc
      simp only [Bool.and_eq_true, Bool.or_eq_true, Bool.not_eq_true', bne_iff_ne, ne_eq, List.contains_eq_mem,
        decide_eq_false_iff_not, List.mem_append, not_or] at hc
      rw [List.append_assoc]
      obtain ⟨more, g1, g2, g3, g4, g5, g6⟩ := ih (more0 ++ [p]) (by
        rw [List.nodup_append]
        refine ⟨h1, by simp, fun x hx y hy e => ?_⟩
        rw [List.mem_singleton.1 hy] at e
        exact hc.2.2 (e ▸ hx)) (by
        intro q hq
        rcases List.mem_append.1 hq with hq | hq
        · exact h2 q hq
        · rw [List.mem_singleton.1 hq]; exact hc.2.1) (by
        intro hn hm
        rcases List.mem_append.1 hm with hm | hm
        · exact h3 hn hm
        · rcases hc.1 with hc | hc
          · rw [hc] at hn; cases hn
          · exact hc (List.mem_singleton.1 hm).symm)
      rw [List.append_assoc] at g1 g3 g4 g5 g6
      refine ⟨p :: more, g1, g2.cons_cons p, g3, g4, ?_, g6⟩
      intro q hq
      rcases List.mem_cons.1 hq with rfl | hq
      · right; simp
      · exact g5 q hq
    · rename_i hc
      obtain ⟨more, g1, g2, g3, g4, g5, g6⟩ := ih more0 h1 h2 h3
      refine ⟨more, g1, g2.cons p, g3, g4, ?_, g6⟩
      intro q hq
      rcases List.mem_cons.1 hq with rfl | hq
      · simp only [Bool.and_eq_true, Bool.or_eq_true, Bool.not_eq_true', bne_iff_ne, ne_eq, List.contains_eq_mem,
          decide_eq_false_iff_not, not_and, Decidable.not_not] at hc
        by_cases hl : a.noLocal = true ∧ q = w.home w.localPath
        · exact Or.inl hl
        · right
          have := hc (by
            by_cases hn : a.noLocal = true
            · exact Or.inr fun e => hl ⟨hn, e⟩
            · exact Or.inl (by simpa using hn))
          simp only [List.mem_append] at this ⊢
          tauto
      · exact g5 q hq

namespace TestLemmas

theorem firstResolved_spec {w : World} {paths : List Str} {sets : List (List Str)} {l : List Pkg}
    (h : firstResolved w paths sets = some l) :
    ∃ pre set post, sets = pre ++ set :: post ∧ (∀ s ∈ pre, s ≠ [] ∧ w.solve paths s = none) ∧
      ((set = [] ∧ l = []) ∨ (set ≠ [] ∧ w.solve paths set = some l)) := by
  induction sets with
  | nil => cases h
  | cons r rest ih =>
    unfold firstResolved at h
    split at h
    · rename_i hr
      simp only [Option.some.injEq] at h
      subst h
      exact ⟨[], r, rest, rfl, by simp, Or.inl ⟨List.isEmpty_iff.1 hr, rfl⟩⟩
    · rename_i hr
      have hr : r ≠ [] := fun e => hr (List.isEmpty_iff.2 e)
      split at h
      · cases hs : w.solve paths r with
        | some m =>
          rw [hs] at h
          simp only [Option.some.injEq] at h
          subst h
          exact ⟨[], r, rest, rfl, by simp, Or.inr ⟨hr, hs⟩⟩
        | none =>
          rw [hs] at h
          obtain ⟨pre, set, post, h1, h2, h3⟩ := ih h
          refine ⟨r :: pre, set, post, by rw [h1]; rfl, fun s hx => ?_, h3⟩
          rcases List.mem_cons.1 hx with rfl | hx
          · exact ⟨hr, hs⟩
          · exact h2 s hx
      · cases h

end TestLemmas
open TestLemmas

/-- C169: the package of the working directory is tested with the packages that its requirements, the extra ones and
those of its first variant that can be resolved lead to; its own commands come last, after them those before tests. -/
theorem C169_here (w : World) (a : Args) (p : Pkg) (r : Runner) (hp : w.packageFile (a.workingDir.getD w.cwd) = some (some p))
    (hi : a.inplace = false) (h : load w a = some r) :
    ∃ pre set post packages env,
      (if p.variants = [] then [p.requires ++ a.extraPackages] else p.variants.map fun v => p.requires ++ a.extraPackages ++ v) =
        pre ++ set :: post ∧
      (∀ s ∈ pre, w.solve (searchPaths w a) s = none) ∧
      ((set = [] ∧ packages = []) ∨ w.solve (searchPaths w a) set = some packages) ∧
      w.generate (packages ++ [{ p with
        preTestCommands := none
        postCommands := match p.preTestCommands, p.postCommands with
          | some c, some q => some (q ++ c!"\n" ++ c)
          | some c, none => some c
          | none, q => q }]) = some env ∧
      r = ⟨a.workingDir.getD w.cwd, p.tests, some env, false⟩ := by
  unfold load at h
  dsimp only at h
  rw [hp] at h
  dsimp only at h
  unfold extract at h
  rw [hi, if_neg (by simp)] at h
  cases hf : firstResolved w (searchPaths w a) (requirementSets p a false) with
  | none => rw [hf] at h; cases h
  | some packages =>
    rw [hf] at h
    dsimp only at h
    rw [if_neg (by simp)] at h
    dsimp only at h
    obtain ⟨env, he, rfl⟩ := Option.map_eq_some_iff.1 h
    obtain ⟨pre, set, post, h1, h2, h3⟩ := firstResolved_spec hf
    refine ⟨pre, set, post, packages, env, ?_, fun s hs => (h2 s hs).2, h3.imp_right fun h => h.2, ?_, rfl⟩
    · rw [← h1]
      unfold requirementSets
      simp [List.isEmpty_iff]
    · rw [← he]
      congr 2
      congr 1
      unfold withPreTest
      cases hpre : p.preTestCommands with
      | none => cases hpost : p.postCommands <;> (cases p; simp_all)
      | some c => cases hpost : p.postCommands <;> rfl

/-- C169: tests in place are run exactly if the package is in the current environment: its directory is there, and no
other version. -/
theorem C169_inplace (w : World) (a : Args) (p : Pkg) (hp : w.packageFile (a.workingDir.getD w.cwd) = some (some p))
    (hi : a.inplace = true) :
    ∃ r, load w a = some r ∧ r.env = some w.vars ∧
      (r.skip = false ↔ ∃ root, mget w.vars (Environment.upper p.name ++ c!"_ROOT") = some root ∧ w.isDir root = true ∧
        (∀ v u, p.version = some v → mget w.vars (Environment.upper p.name ++ c!"_VERSION") = some u → u = v)) ∧
      (r.skip = false → mget w.vars (Environment.upper p.name ++ c!"_ROOT") = some r.dir) := by
  refine ⟨inplaceRunner w (a.workingDir.getD w.cwd) p, ?_, ?_, ?_, ?_⟩
  · unfold load
    dsimp only
    rw [hp]
    dsimp only
    unfold extract
    rw [hi, if_pos rfl]
  · unfold inplaceRunner
    dsimp only
    cases mget w.vars (Environment.upper p.name ++ c!"_ROOT") with
    | none => rfl
    | some root => dsimp only; generalize (!w.isDir root || _) = b; cases b <;> rfl
  · unfold inplaceRunner
    cases hr : mget w.vars (Environment.upper p.name ++ c!"_ROOT") with
    | none => simp
    | some root =>
      cases hv : p.version with
      | none => cases hd : w.isDir root <;> simp [hd]
      | some v =>
        cases hu : mget w.vars (Environment.upper p.name ++ c!"_VERSION") with
        | none => cases hd : w.isDir root <;> simp [hd]
        | some u =>
          cases hd : w.isDir root
          · simp [hd]
          · by_cases huv : v = u
            · subst huv; simp [hd]
            · simp [hd, huv, Ne.symm huv]
  · unfold inplaceRunner
    cases hr : mget w.vars (Environment.upper p.name ++ c!"_ROOT") with
    | none => simp
    | some root =>
      dsimp only
      generalize (!w.isDir root || _) = b
      cases b
      · intro _; rfl
      · simp

namespace TestsLemmas

theorem last_iff (w : World) (a : Args) (s v : Str) : Last w a s v ↔ ((w.versions s a.package).bind fun l => (Search.sortStr l).getLast?) = some v := by
  unfold Last
  cases w.versions s a.package with
  | none => simp
  | some l =>
    simp only [Option.some.injEq, exists_eq_left', Option.bind_some]
    have hp := SearchLemmas.sortStr_perm l
    have hs := SearchLemmas.sortStr_sorted l
    generalize Search.sortStr l = m at hp hs
    rw [← hp.mem_iff]
    have hall : (∀ x ∈ l, cmpStr x v ≠ .gt) ↔ ∀ x ∈ m, cmpStr x v ≠ .gt := forall_congr' fun x => by rw [hp.mem_iff]
    rw [hall]
    rcases List.eq_nil_or_concat m with rfl | ⟨m', y, rfl⟩
    · simp
    · rw [List.concat_eq_append] at *
      rw [List.getLast?_concat]
      have hle : ∀ x ∈ m' ++ [y], cmpStr x y ≠ .gt := by
        intro x hx
        rcases List.mem_append.1 hx with hx | hx
        · exact (List.pairwise_append.1 hs).2.2 x hx y (List.mem_singleton.2 rfl)
        · rw [List.mem_singleton.1 hx, cmpStr_refl]; decide
      constructor
      · rintro ⟨h1, h2⟩
        have h3 := h2 y (by simp)
        have h4 := hle v h1
        congr 1
        by_contra hne
        cases hc : cmpStr y v with
        | gt => exact h3 hc
        | eq => exact hne ((cmpStr_eq_iff _ _).1 hc)
        | lt => exact h4 (by rw [← cmpStr_swap, hc]; rfl)
      · intro h
        cases h
        exact ⟨by simp, hle⟩

theorem loadFrom_at (w : World) (a : Args) (paths : List Str) (s v : Str) (post : List Str) (hv : Last w a s v) : ∀ (pre : List Str), (∀ t ∈ pre, Without w a t) →
    w.packageFile (w.versionDir s a.package v) ≠ none →
    loadFrom w a paths (pre ++ s :: post) = match w.packageFile (w.versionDir s a.package v) with
      | some (some p) => extract w a paths (w.versionDir s a.package v) p true
      | _ => none := by
  intro pre
  induction pre with
  | nil =>
    intro _ hne
    rw [List.nil_append, loadFrom, (last_iff w a s v).1 hv]
    dsimp only
    cases hp : w.packageFile (w.versionDir s a.package v) with
    | none => exact absurd hp hne
    | some x => cases x <;> rfl
  | cons t pre ih =>
    intro h hne
    rw [List.cons_append, loadFrom]
    have ih := ih (fun u hu => h u (List.mem_cons_of_mem _ hu)) hne
    split
    · exact ih
    · rename_i u hu
      rw [h t List.mem_cons_self u ((last_iff w a t u).2 hu)]
      exact ih

theorem loadFrom_some (w : World) (a : Args) (paths : List Str) : ∀ (l : List Str), (∃ pre s post v, l = pre ++ s :: post ∧ (∀ t ∈ pre, Without w a t) ∧
    Last w a s v ∧ w.packageFile (w.versionDir s a.package v) ≠ none) ∨ ((∀ t ∈ l, Without w a t) ∧ loadFrom w a paths l = none) := by
  intro l
  induction l with
  | nil => exact .inr ⟨fun t h => (by cases h), rfl⟩
  | cons t l ih =>
    by_cases hw : Without w a t
    · rcases ih with ⟨pre, s, post, v, rfl, h⟩ | ⟨h1, h2⟩
      · exact .inl ⟨t :: pre, s, post, v, rfl, fun u hu => (List.mem_cons.1 hu).elim (fun e => e ▸ hw) (h.1 u), h.2⟩
      · refine .inr ⟨fun u hu => (List.mem_cons.1 hu).elim (fun e => e ▸ hw) (h1 u), ?_⟩
        rw [loadFrom]
        split
        · exact h2
        · rename_i u hu
          rw [hw u ((last_iff w a t u).2 hu)]
          exact h2
    · unfold Without at hw
      push Not at hw
      obtain ⟨v, h1, h2⟩ := hw
      exact .inl ⟨[], t, l, v, rfl, fun u hu => (by cases hu), h1, h2⟩

theorem pre_test_in (name : Str) : ∀ (l m : List Pkg), withPreTestIn name l = some m →
    ∃ pre q post, l = pre ++ q :: post ∧ q.name = name ∧ (∀ x ∈ pre, x.name ≠ name) ∧ m = pre ++ withPreTest q :: post := by
  intro l
  induction l with
  | nil => intro m h; cases h
  | cons p l ih =>
    intro m h
    rw [withPreTestIn] at h
    split at h
    · rename_i hp
      cases h
      exact ⟨[], p, l, rfl, hp, fun x hx => (by cases hx), rfl⟩
    · rename_i hp
      obtain ⟨m', h1, rfl⟩ := Option.map_eq_some_iff.1 h
      obtain ⟨pre, q, post, rfl, h2, h3, rfl⟩ := ih m' h1
      exact ⟨p :: pre, q, post, rfl, h2, fun x hx => (List.mem_cons.1 hx).elim (fun e => e ▸ hp) (h3 x), rfl⟩

end TestsLemmas

/-- C169: elsewhere, the package is the last version in the first directory to search in which there is a package file; it is tested with
the packages that it and the extra ones lead to, among them itself, which runs its commands before tests after its others; and the
tests are its own. -/
theorem C169_elsewhere (w : World) (a : Args) (r : Runner) (hp : w.packageFile (a.workingDir.getD w.cwd) = none) (hi : a.inplace = false) (h : load w a = some r) :
    ∃ pre s post v p before q after env, searchPaths w a = pre ++ s :: post ∧ (∀ t ∈ pre, Without w a t) ∧ Last w a s v ∧
      w.packageFile (w.versionDir s a.package v) = some (some p) ∧ w.solve (searchPaths w a) (p.qualified :: a.extraPackages) = some (before ++ q :: after) ∧
      q.name = p.name ∧ (∀ x ∈ before, x.name ≠ p.name) ∧
      w.generate (before ++ { q with
        preTestCommands := none
        postCommands := match q.preTestCommands, q.postCommands with
          | some c, some d => some (d ++ c!"\n" ++ c)
          | some c, none => some c
          | none, d => d } :: after) = some env ∧
      r = ⟨w.versionDir s a.package v, p.tests, some env, false⟩ := by
  unfold load at h
  dsimp only at h
  rw [hp] at h
  dsimp only at h
  rcases TestsLemmas.loadFrom_some w a (searchPaths w a) (searchPaths w a) with ⟨pre, s, post, v, hl, h1, h2, h3⟩ | ⟨_, h2⟩
  · rw [show loadFrom w a (searchPaths w a) (searchPaths w a) = loadFrom w a (searchPaths w a) (pre ++ s :: post) from by rw [← hl],
      TestsLemmas.loadFrom_at w a _ s v post h2 pre h1 h3] at h
    split at h
    · rename_i p hf
      unfold extract at h
      rw [if_neg (by simp [hi])] at h
      split at h
      · cases h
      · rename_i packages hr
        simp only [if_true] at h
        split at h
        · cases h
        · rename_i m hm
          obtain ⟨env, h4, rfl⟩ := Option.map_eq_some_iff.1 h
          obtain ⟨before, q, after, rfl, h5, h6, rfl⟩ := TestsLemmas.pre_test_in _ _ _ hm
          refine ⟨pre, s, post, v, p, before, q, after, env, hl, h1, h2, hf, ?_, h5, h6, ?_, rfl⟩
          · unfold requirementSets at hr
            rw [if_pos rfl, firstResolved, if_neg (by simp)] at hr
            split at hr
            · split at hr
              · rename_i l hs; rw [hs]; exact hr
              · cases hr
            · cases hr
          · rw [← h4]
            congr 2
            unfold withPreTest
            obtain ⟨q1, q2, q3, q4, q5, q6, q7⟩ := q
            cases q6 with
            | none => rfl
            | some c => cases q7 <;> rfl
    · cases h
  · rw [h2] at h; cases h

/-- C169: if that package file cannot be read, nothing is tested: the directories after it are not looked at. -/
theorem C169_broken (w : World) (a : Args) (pre : List Str) (s : Str) (post : List Str) (v : Str) (hp : w.packageFile (a.workingDir.getD w.cwd) = none)
    (hs : searchPaths w a = pre ++ s :: post) (h1 : ∀ t ∈ pre, Without w a t) (h2 : Last w a s v) (h3 : w.packageFile (w.versionDir s a.package v) = some none) :
    execute w a = .failed := by
  have hl : load w a = none := by
    unfold load
    dsimp only
    rw [hp]
    dsimp only
    rw [show loadFrom w a (searchPaths w a) (searchPaths w a) = loadFrom w a (searchPaths w a) (pre ++ s :: post) from by rw [← hs],
      TestsLemmas.loadFrom_at w a _ s v post h2 pre h1 (by rw [h3]; simp), h3]
  unfold execute
  split
  · rfl
  · rw [hl]

/-- C169: tests in place are refused with options that only another environment could follow. -/
theorem C169_refused (w : World) (a : Args) (hi : a.inplace = true) (h : a.extraPackages ≠ [] ∨ a.paths.isSome = true ∨ a.noLocal = true) : execute w a = .failed := by
  unfold execute
  rw [if_pos]
  rw [hi, Bool.true_and, Bool.or_eq_true, Bool.or_eq_true]
  rcases h with h | h | h
  · left; left
    cases he : a.extraPackages with
    | nil => exact absurd he h
    | cons => rfl
  · exact .inl (.inr h)
  · exact .inr h

/-- C169 is false of the package named: in a directory with a package, that one is tested. -/
theorem C169_named_false : ¬ ∀ (w : World) (a : Args) (r : Runner), load w a = some r →
    ∃ p dir, w.packageFile dir = some (some p) ∧ r.tests = p.tests ∧ p.name = a.package := by
  intro h
  obtain ⟨p, dir, h1, _, h3⟩ := h testWorld { testArgs with package := c!"bar" } _ rfl
  unfold testWorld at h1
  dsimp only at h1
  split at h1
  · simp only [Option.some.injEq] at h1
    subst h1
    revert h3
    decide
  · cases h1

/-- A repository with the versions 1.9 and 1.10 of a package. -/
def testRepo : World :=
  { testWorld with
    packageFile := fun d => if d = c!"/repo/foo/1.9" then some (some { testPkg with version := some c!"1.9" })
      else if d = c!"/repo/foo/1.10" then some (some { testPkg with version := some c!"1.10", tests := [] }) else none
    versions := fun s p => if s = c!"/repo" ∧ p = c!"foo" then some [c!"1.9", c!"1.10"] else none
    solve := fun _ _ => some [{ testPkg with version := some c!"1.9" }] }

/-- C169 is false of the latest version: the greatest text is taken, so that 1.9 is tested and not 1.10. -/
theorem C169_latest_false : (load testRepo testArgs).map (·.dir) = some c!"/repo/foo/1.9" := by decide +kernel

/-- C169 is false of requests with a version: they are looked up as a name. -/
theorem C169_version_false : execute testRepo { testArgs with package := c!"foo-1.9" } = .failed ∧
    testRepo.packageFile c!"/repo/foo/1.9" ≠ none := ⟨by decide +kernel, by decide +kernel⟩

/-! ## C170: commands in the library -/

/-- C170: a command of several words without special characters is run as the shell would run it: the program is the first
word, and the others are its arguments. -/
theorem C170_words_partial (p q : Str) (rest : List Str) (h : ∀ w ∈ p :: q :: rest, Rez.Build.Spec.Bare w ∧ ∀ c ∈ w, isWs c = false) :
    libraryProgram (joinWith c!" " (p :: q :: rest)) = some (p, q :: rest) ∧
    Rez.Build.Spec.shellWords (joinWith c!" " (p :: q :: rest)) = some (p :: q :: rest) := by
  refine ⟨?_, SystemLemmas.words_join _ fun w hw => (h w hw).1⟩
  unfold libraryProgram
  rw [if_pos (by
    show List.contains (p ++ c!" " ++ joinWith c!" " (q :: rest)) ' ' = true
    simp), splitWs_join _ fun w hw => ⟨(h w hw).1.1, (h w hw).2⟩]

/-- C170: a command without a blank is given to the shell. -/
theorem C170_single (command : Str) (h : ' ' ∉ command) : libraryProgram command = some (c!"sh", [c!"-c", command]) := by
  unfold libraryProgram
  rw [if_neg (by simpa using h)]

/-- C170 is false of commands with quotes, which the shell would take off and the library keeps. -/
theorem C170_words_false : ¬ ∀ (command program : Str) (args : List Str), libraryProgram command = some (program, args) →
    program ≠ c!"sh" → Rez.Build.Spec.shellWords command = some (program :: args) := by
  intro h
  have := h c!"run \"a b\"" c!"run" [c!"\"a", c!"b\""] (by decide) (by decide)
  revert this
  decide

example : libraryProgram c!"python -m pytest" = some (c!"python", [c!"-m", c!"pytest"]) := by decide

end Rez.Props
