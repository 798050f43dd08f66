import Verif.Spec.PyBundle
import Verif.Props.Search
import Verif.Lemmas.Text
/-!
# C244: bundles from Python
-/
namespace Rez.Props
open Rez Rez.PyBundle Rez.Spec.PyBundle

namespace PyBundleLemmas

theorem all_dropWhile {l : Str} (h : ∀ c ∈ l, isWs c = true) : l.dropWhile isWs = [] := by
  rw [List.dropWhile_eq_nil_iff]; exact h

theorem trimEnd_ws (l : Str) {c : Char} (h : isWs c = true) : trimEnd (l ++ [c]) = trimEnd l := by
  simp [trimEnd, h]

theorem trim_ws (l : Str) {c : Char} (h : isWs c = true) : trim (l ++ [c]) = trim l := by
  unfold trim trimStart
  rw [List.dropWhile_append]
  split
  · rename_i he
    have : l.dropWhile isWs = [] := by simpa using he
    rw [this]
    simp [h]
  · rw [trimEnd_ws _ h]

theorem trim_cr (l : Str) : trim (if l.getLast? = some '\r' then l.dropLast else l) = trim l := by
  split
  · rename_i h
    obtain ⟨ys, rfl⟩ := List.getLast?_eq_some_iff.1 h
    rw [List.dropLast_concat, trim_ws _ (by decide)]
  · rfl

/-- The lines without blanks around, of a text that ends in a line break. -/
theorem lines_trim {ps : List Str} (hp : ∀ p ∈ ps, '\n' ∉ p) :
    (Serial.linesOf (joinWith c!"\n" (ps ++ [[]]))).map trim = ps.map trim := by
  unfold Serial.linesOf
  rw [splitChar_join (by simp) (by
    intro p h
    rcases List.mem_append.1 h with h | h
    · exact hp p h
    · rw [List.mem_singleton.1 h]; simp)]
  simp only [List.dropLast_concat, List.map_append, List.map_map]
  have : ((ps ++ [[]]).getLast?.toList.filter fun l : Str => !l.isEmpty) = [] := by simp
  rw [this]
  simp only [List.map_nil, List.append_nil]
  apply List.map_congr_left
  intro l _
  exact trim_cr l

theorem join_cons (p : Str) {qs : List Str} (h : qs ≠ []) : joinWith c!"\n" (p :: qs) = p ++ c!"\n" ++ joinWith c!"\n" qs := by
  cases qs with
  | nil => exact absurd rfl h
  | cons q qs => rfl

theorem join_append (ps qs : List Str) (hp : ps ≠ []) (h : qs ≠ []) :
    joinWith c!"\n" (ps ++ qs) = joinWith c!"\n" ps ++ c!"\n" ++ joinWith c!"\n" qs := by
  induction ps with
  | nil => exact absurd rfl hp
  | cons p ps ih =>
    cases ps with
    | nil => exact join_cons p h
    | cons p' ps =>
      rw [List.cons_append, join_cons p (by simp), ih (by simp), join_cons p (by simp)]
      simp only [List.append_assoc]

/-- The entries of a manifest. -/
def items (ps : List Str) : List Str := if ps = [] then [[]] else ps.map fun p => c!"  - " ++ p

theorem items_ne (ps : List Str) : items ps ≠ [] := by
  unfold items
  split_ifs with h
  · simp
  · simpa using h

theorem join_items (ps : List Str) : joinWith c!"\n" (items ps) = joinWith c!"\n" (ps.map fun p => c!"  - " ++ p) := by
  unfold items
  split_ifs with h
  · rw [h]; rfl
  · rfl

theorem manifest_lines (ps : List Str) (b : Bool) : manifest ps b =
    joinWith c!"\n" (([c!"# rez bundle manifest", c!"packages:"] ++ items ps ++ [c!"skip_solve: " ++ Serial.flagText b]) ++ [[]]) := by
  rw [join_append _ _ (by simp) (by simp), join_append _ _ (by simp) (by simp), join_append _ _ (by simp) (items_ne ps), join_items]
  unfold manifest
  simp [joinWith]

theorem noBreak_items {ps : List Str} (h : ∀ p ∈ ps, '\n' ∉ p) : ∀ l ∈ items ps, '\n' ∉ l := by
  unfold items
  split_ifs with he
  · simp
  · intro l hl
    obtain ⟨p, hp, rfl⟩ := List.mem_map.1 hl
    intro hc
    rcases List.mem_append.1 hc with hc | hc
    · revert hc; decide
    · exact h p hp hc

def stepT (s : Bool × List Str) (t : Str) : Bool × List Str :=
  if t = c!"packages:" then (true, s.2)
  else if s.1 then
    if (c!"- ").isPrefixOf t then (true, s.2 ++ [t.drop 2])
    else if !t.isEmpty && !(c!" ").isPrefixOf t && !(c!"-").isPrefixOf t then (false, s.2)
    else s
  else s

theorem step_eq (s : Bool × List Str) (l : Str) : step s l = stepT s (trim l) := rfl

theorem fold_step (s : Bool × List Str) (ls : List Str) : ls.foldl step s = (ls.map trim).foldl stepT s := by
  rw [List.foldl_map]
  rfl

/-- What is read of an entry. -/
def entryOf (p : Str) : Option Str := if trimEnd p = [] then none else some (trimEnd p)

theorem trim_item (p : Str) : trim (c!"  - " ++ p) = if trimEnd p = [] then c!"-" else c!"- " ++ trimEnd p := by
  have h1 : trimStart (c!"  - " ++ p) = c!"- " ++ p := by
    simp [trimStart, isWs]
  unfold trim
  rw [h1]
  unfold trimEnd
  rw [List.reverse_append, List.dropWhile_append]
  by_cases h : p.reverse.dropWhile isWs = []
  · simp [h, isWs]
  · simp [h]

theorem fold_items (ps : List Str) (acc : List Str) :
    ((ps.map fun p => c!"  - " ++ p).map trim).foldl stepT (true, acc) = (true, acc ++ ps.filterMap entryOf) := by
  induction ps generalizing acc with
  | nil => simp
  | cons p ps ih =>
    rw [List.map_cons, List.map_cons, List.foldl_cons, trim_item]
    unfold entryOf at ih ⊢
    split_ifs with h
    · have : stepT (true, acc) c!"-" = (true, acc) := by simp [stepT]
      rw [this, ih, List.filterMap_cons_none (by simp [h])]
    · have : stepT (true, acc) (c!"- " ++ trimEnd p) = (true, acc ++ [trimEnd p]) := by simp [stepT]
      rw [this, ih, List.filterMap_cons_some (b := trimEnd p) (by simp [h])]
      simp

theorem read_manifest {ps : List Str} (h : ∀ p ∈ ps, '\n' ∉ p) (b : Bool) : readManifest (manifest ps b) = ps.filterMap entryOf := by
  unfold readManifest
  rw [fold_step, manifest_lines, lines_trim (by
    intro p hp
    rcases List.mem_append.1 hp with hp | hp
    · rcases List.mem_append.1 hp with hp | hp
      · have : ∀ p ∈ [c!"# rez bundle manifest", c!"packages:"], '\n' ∉ p := by decide
        exact this p hp
      · exact noBreak_items h p hp
    · rw [List.mem_singleton.1 hp]
      cases b <;> decide)]
  rw [List.map_append, List.map_append, List.foldl_append, List.foldl_append]
  have h1 : ([c!"# rez bundle manifest", c!"packages:"].map trim).foldl stepT (false, []) = (true, []) := by decide +kernel
  rw [h1]
  have h2 : ((items ps).map trim).foldl stepT (true, []) = (true, ps.filterMap entryOf) := by
    unfold items
    split_ifs with he
    · subst he; decide +kernel
    · rw [fold_items]; rfl
  rw [h2]
  have h3 : ∀ acc, ([c!"skip_solve: " ++ Serial.flagText b].map trim).foldl stepT (true, acc) = (false, acc) := by
    intro acc
    cases b
    · have : ([c!"skip_solve: " ++ Serial.flagText false].map trim) = [c!"skip_solve: false"] := by decide +kernel
      rw [this]; rfl
    · have : ([c!"skip_solve: " ++ Serial.flagText true].map trim) = [c!"skip_solve: true"] := by decide +kernel
      rw [this]; rfl
  rw [h3]

theorem shown_plain {p : Str} (h : Plain p) : entryOf p = some p := by
  obtain ⟨c, hc, hw⟩ := h.last
  obtain ⟨ys, rfl⟩ := List.getLast?_eq_some_iff.1 hc
  have : trimEnd (ys ++ [c]) = ys ++ [c] := by simp [trimEnd, hw]
  unfold entryOf
  rw [this, if_neg (by simp)]

/-! Reading any text -/

theorem trim_head (l : Str) : (trim l).head? ≠ some ' ' := by
  unfold trim
  intro h
  have hp : trimEnd (trimStart l) <+: trimStart l := by
    unfold trimEnd
    have := List.dropWhile_suffix isWs (l := (trimStart l).reverse)
    simpa using List.reverse_prefix.2 this
  obtain ⟨r, hr⟩ := hp
  cases hq : trimEnd (trimStart l) with
  | nil => rw [hq] at h; cases h
  | cons c cs =>
    rw [hq] at h hr
    simp only [List.head?_cons, Option.some.injEq] at h
    subst h
    unfold trimStart at hr
    have hne : l.dropWhile isWs ≠ [] := by rw [← hr]; simp
    have := List.head_dropWhile_not (p := isWs) (l := l) hne
    have hh : (l.dropWhile isWs).head? = some ' ' := by rw [← hr]; rfl
    rw [List.head?_eq_some_head hne] at hh
    rw [Option.some.inj hh] at this
    exact absurd this (by decide)

theorem isPrefix_one (c : Char) (t : Str) : ([c] : Str).isPrefixOf t = true ↔ t.head? = some c := by
  cases t with
  | nil => simp
  | cons d t =>
    simp only [List.isPrefixOf, Bool.and_true, beq_iff_eq, List.head?_cons, Option.some.injEq]
    exact eq_comm

theorem isPrefix_two (t : Str) : (c!"- ").isPrefixOf t = true ↔ ∃ p, t = c!"- " ++ p := by
  rw [List.isPrefixOf_iff_prefix]
  constructor
  · rintro ⟨p, h⟩; exact ⟨p, h.symm⟩
  · rintro ⟨p, h⟩; exact ⟨p, h.symm⟩

theorem step_cases (s : Bool × List Str) (l : Str) :
    (trim l = c!"packages:" ∧ step s l = (true, s.2)) ∨
    (s.1 = false ∧ trim l ≠ c!"packages:" ∧ step s l = s) ∨
    (s.1 = true ∧ ∃ p, trim l = c!"- " ++ p ∧ step s l = (true, s.2 ++ [p])) ∨
    (s.1 = true ∧ Ends l ∧ step s l = (false, s.2)) ∨
    (s.1 = true ∧ ¬ Ends l ∧ trim l ≠ c!"packages:" ∧ (¬ ∃ p, trim l = c!"- " ++ p) ∧ step s l = s) := by
  rcases s with ⟨f, acc⟩
  rw [step_eq]
  unfold stepT
  by_cases h : trim l = c!"packages:"
  · left; exact ⟨h, by rw [if_pos h]⟩
  · right
    rw [if_neg h]
    cases f with
    | false => left; exact ⟨rfl, h, rfl⟩
    | true =>
      right
      simp only [if_true, true_and]
      by_cases hp : (c!"- ").isPrefixOf (trim l) = true
      · left
        obtain ⟨p, he⟩ := (isPrefix_two _).1 hp
        refine ⟨p, he, ?_⟩
        rw [if_pos hp, he]
        rfl
      · right
        rw [if_neg hp]
        have hs : (c!" ").isPrefixOf (trim l) = false := by
          rw [Bool.eq_false_iff, ne_eq, isPrefix_one]
          exact trim_head l
        by_cases he : Ends l
        · left
          refine ⟨he, ?_⟩
          have h2 : (c!"-").isPrefixOf (trim l) = false := by
            rw [Bool.eq_false_iff, ne_eq, isPrefix_one]
            exact he.2.1
          have h3 : (trim l).isEmpty = false := by
            simpa using he.1
          rw [hs, h2, h3]
          rfl
        · right
          refine ⟨he, h, fun hh => hp ((isPrefix_two _).2 hh), ?_⟩
          rw [if_neg]
          intro hc
          simp only [hs, Bool.not_false, Bool.and_true, Bool.and_eq_true, Bool.not_eq_true'] at hc
          apply he
          refine ⟨by simpa using hc.1, ?_, h⟩
          intro hh
          rw [← isPrefix_one] at hh
          rw [hh] at hc
          exact absurd hc.2 (by simp)

/-- Listed, for a reader that is already in a list. -/
def Open (ls : List Str) (p : Str) : Prop :=
  ∃ between item after, ls = between ++ item :: after ∧ (∀ l ∈ between, ¬ Ends l) ∧ trim item = c!"- " ++ p

theorem item_open {l p : Str} (h : trim l = c!"- " ++ p) : ¬ Ends l := fun he => he.2.1 (by rw [h]; rfl)

theorem title_open {l : Str} (h : trim l = c!"packages:") : ¬ Ends l := fun he => he.2.2 h

theorem listed_cons (l : Str) (ls : List Str) (p : Str) :
    Listed (l :: ls) p ↔ (trim l = c!"packages:" ∧ Open ls p) ∨ Listed ls p := by
  constructor
  · rintro ⟨before, title, between, item, after, h, ht, hb, hi⟩
    cases before with
    | nil =>
      simp only [List.nil_append, List.cons_append, List.cons.injEq] at h
      obtain ⟨rfl, h⟩ := h
      exact .inl ⟨ht, between, item, after, h, hb, hi⟩
    | cons b before =>
      simp only [List.cons_append, List.cons.injEq] at h
      exact .inr ⟨before, title, between, item, after, by simpa using h.2, ht, hb, hi⟩
  · rintro (⟨ht, between, item, after, h, hb, hi⟩ | ⟨before, title, between, item, after, h, ht, hb, hi⟩)
    · exact ⟨[], l, between, item, after, by simp [h], ht, hb, hi⟩
    · exact ⟨l :: before, title, between, item, after, by simp [h], ht, hb, hi⟩

theorem open_cons (l : Str) (ls : List Str) (p : Str) : Open (l :: ls) p ↔ trim l = c!"- " ++ p ∨ (¬ Ends l ∧ Open ls p) := by
  constructor
  · rintro ⟨between, item, after, h, hb, hi⟩
    cases between with
    | nil =>
      simp only [List.nil_append, List.cons.injEq] at h
      exact .inl (h.1 ▸ hi)
    | cons b between =>
      simp only [List.cons_append, List.cons.injEq] at h
      obtain ⟨rfl, h⟩ := h
      exact .inr ⟨hb _ List.mem_cons_self, between, item, after, h, fun x hx => hb x (List.mem_cons_of_mem _ hx), hi⟩
  · rintro (h | ⟨hn, between, item, after, h, hb, hi⟩)
    · exact ⟨[], l, ls, rfl, by simp, h⟩
    · refine ⟨l :: between, item, after, by simp [h], ?_, hi⟩
      intro x hx
      rcases List.mem_cons.1 hx with rfl | hx
      · exact hn
      · exact hb x hx

theorem fold_mem (ls : List Str) (s : Bool × List Str) (p : Str) :
    p ∈ (ls.foldl step s).2 ↔ p ∈ s.2 ∨ (s.1 = true ∧ Open ls p) ∨ Listed ls p := by
  induction ls generalizing s with
  | nil => simp [Open, Listed]
  | cons l ls ih =>
    rw [List.foldl_cons, ih, listed_cons, open_cons]
    have hinj : ∀ q, c!"- " ++ p = c!"- " ++ q ↔ p = q := fun q => List.append_right_inj _
    rcases step_cases s l with ⟨h, hs⟩ | ⟨hf, h, hs⟩ | ⟨hf, q, h, hs⟩ | ⟨hf, h, hs⟩ | ⟨hf, h, ht, hi, hs⟩
    · have hni : trim l ≠ c!"- " ++ p := by rw [h]; simp
      have := title_open h
      rw [hs]
      simp only [true_and, hni, this, not_false_eq_true, false_or]
      simp only [h, true_and]
      tauto
    · rw [hs, hf]
      simp only [h, false_and, false_or, Bool.false_eq_true]
    · have h1 := item_open h
      have h2 : trim l ≠ c!"packages:" := by rw [h]; simp
      rw [hs, hf]
      simp only [h1, h, List.mem_append, List.mem_singleton, List.append_right_inj, not_false_eq_true, true_and]
      have : q = p ↔ p = q := eq_comm
      tauto
    · have h2 : trim l ≠ c!"packages:" := h.2.2
      have h3 : trim l ≠ c!"- " ++ p := fun e => item_open e h
      rw [hs, hf]
      simp only [h, h2, h3, not_true_eq_false, false_and, false_or, or_false, and_false, Bool.false_eq_true]
    · have h3 : trim l ≠ c!"- " ++ p := fun e => hi ⟨p, e⟩
      rw [hs, hf]
      simp only [h, ht, h3, not_false_eq_true, true_and, false_and, false_or]

end PyBundleLemmas
open PyBundleLemmas

/-- C244: what is bundled is what is unbundled: for requests on one line, not blank and without blanks at the end, in this order,
whatever else is bundled into other directories afterwards. -/
theorem C244_roundtrip (w : World) (ps : List Str) (hp : ∀ p ∈ ps, Plain p) (dir : Str) (hl : dir ∉ w.locked) (skip : Bool)
    (later : List (List Str × Str × Bool)) (ho : ∀ x ∈ later, x.2.1 ≠ dir) (dest : Option Str) :
    (bundle w ps dir skip).2 = some dir ∧
    unbundle (later.foldl (fun w x => (bundle w x.1 x.2.1 x.2.2).1) (bundle w ps dir skip).1) dir dest = some ps := by
  have hk : w.locked.contains dir = false := by simpa using hl
  constructor
  · unfold bundle; rw [hk]; rfl
  · have key : ∀ (later : List (List Str × Str × Bool)) (w : World), (∀ x ∈ later, x.2.1 ≠ dir) →
        mget (later.foldl (fun w x => (bundle w x.1 x.2.1 x.2.2).1) w).manifests dir = mget w.manifests dir := by
      intro later
      induction later with
      | nil => intro w _; rfl
      | cons x later ih =>
        intro w ho
        rw [List.foldl_cons, ih _ fun y hy => ho y (List.mem_cons_of_mem _ hy)]
        unfold bundle
        split_ifs
        · rfl
        · simp only [mget_mset]
          rw [if_neg (Ne.symm (ho x List.mem_cons_self))]
    unfold unbundle
    rw [key later _ ho]
    unfold bundle
    rw [hk]
    simp only [Bool.false_eq_true, if_false, mget_mset, if_true, Option.map_some, Option.some.injEq]
    rw [read_manifest fun p h => (hp p h).line]
    have : ∀ ps : List Str, (∀ p ∈ ps, Plain p) → ps.filterMap entryOf = ps := by
      intro ps
      induction ps with
      | nil => intro _; rfl
      | cons p ps ih =>
        intro h
        rw [List.filterMap_cons_some (shown_plain (h p List.mem_cons_self)), ih fun q hq => h q (List.mem_cons_of_mem _ hq)]
    exact this ps hp

/-- C244: for all requests on one line: blanks at the end are lost, and blank requests are left out. -/
theorem C244_blanks (ps : List Str) (h : ∀ p ∈ ps, '\n' ∉ p) (skip : Bool) :
    readManifest (manifest ps skip) = (ps.map trimEnd).filter fun p => p ≠ [] := by
  rw [read_manifest h]
  induction ps with
  | nil => rfl
  | cons p ps ih =>
    rw [List.map_cons]
    by_cases hp : trimEnd p = []
    · rw [List.filterMap_cons_none (by simp [entryOf, hp]), ih fun q hq => h q (List.mem_cons_of_mem _ hq), hp]
      simp
    · rw [List.filterMap_cons_some (b := trimEnd p) (by simp [entryOf, hp]), ih fun q hq => h q (List.mem_cons_of_mem _ hq)]
      simp [hp]

/-- C244: what is read from any text, written by hand too: exactly the entries below a title `packages:`, up to a line that is
something else. -/
theorem C244_read (text p : Str) : p ∈ readManifest text ↔ Listed (Serial.linesOf text) p := by
  unfold readManifest
  rw [fold_mem]
  simp

/-- C244: where nothing can be written, nothing changes; where nothing was bundled, nothing can be unbundled. -/
theorem C244_errors (w : World) (ps : List Str) (dir : Str) (skip : Bool) :
    ((bundle w ps dir skip).2 = none ↔ dir ∈ w.locked) ∧ (dir ∈ w.locked → (bundle w ps dir skip).1 = w) ∧
    ∀ dest, unbundle w dir dest = none ↔ dir ∉ mkeys w.manifests := by
  refine ⟨?_, ?_, fun dest => ?_⟩
  · unfold bundle
    split_ifs with h
    · simpa using h
    · simpa using h
  · intro h
    unfold bundle
    rw [if_pos (by simpa using h)]
  · unfold unbundle
    rw [Option.map_eq_none_iff, mget_none_iff]

/-- C244: the bundles in a directory: the names of all directories with a manifest, sorted. -/
theorem C244_list (base : Option (List Entry)) :
    (∀ n, n ∈ PyBundle.list base ↔ ∃ es, base = some es ∧ ∃ e ∈ es, e.dir = true ∧ e.manifest = true ∧ e.name = some n) ∧
    (PyBundle.list base).Pairwise fun a b => cmpStr a b ≠ .gt := by
  cases base with
  | none => exact ⟨fun n => by simp [PyBundle.list], List.Pairwise.nil⟩
  | some es =>
    refine ⟨fun n => ?_, SearchLemmas.sortStr_sorted _⟩
    show n ∈ Search.sortStr _ ↔ _
    rw [(SearchLemmas.sortStr_perm _).mem_iff, List.mem_filterMap]
    constructor
    · rintro ⟨e, he, h⟩
      split_ifs at h with hc
      · rw [Bool.and_eq_true] at hc
        exact ⟨es, rfl, e, he, hc.1, hc.2, h⟩
    · rintro ⟨_, h0, e, he, h1, h2, h3⟩
      injection h0 with h0
      subst h0
      exact ⟨e, he, by simp [h1, h2, h3]⟩

/-- C244, false: all requests come back: a line break in one of them ends the list, and the requests after it are lost. -/
theorem C244_breaks_false : readManifest (manifest [c!"a\nb", c!"c"] false) = [c!"a"] := by decide +kernel

/-- C244, false: only the list of packages is read: a second list with the same title, or in a comment, counts too. -/
theorem C244_titles_false : readManifest c!"old:\n  packages:\n    - x-1\npackages:\n- y-2\n" = [c!"x-1", c!"y-2"] := by decide +kernel

example : Plain c!"python-3.9+<4" := ⟨by decide, '4', by decide, by decide⟩

example : readManifest (manifest [c!"python-3.9", c!"maya>=2024"] true) = [c!"python-3.9", c!"maya>=2024"] := by decide +kernel

example : PyBundle.list (some [⟨some c!"b", true, true⟩, ⟨some c!"c", false, true⟩, ⟨some c!"a", true, true⟩, ⟨none, true, true⟩]) =
    [c!"a", c!"b"] := by decide +kernel

end Rez.Props
