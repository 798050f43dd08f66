import Verif.Spec.Filter
import Verif.Props.Requirement
import Mathlib.Data.List.Induction
/-!
# C56, C57: package filters
-/
namespace Rez.Props
open Rez Rez.Filter Rez.Spec.Filter

namespace FilterLemmas

theorem matches_iff (p : Package) (r : Rule) : r.matches p = true ↔ Matches p r := by
  cases r with
  | glob _ f => exact Iff.rfl
  | regex _ f => exact Iff.rfl
  | range q =>
    unfold Rule.matches Matches
    cases hv : p.version <;> cases hq : q.constraint <;> simp [hv, hq]
  | time t i b =>
    unfold Rule.matches
    cases hts : p.timestamp with
    | none => cases i <;> cases b <;> simp [Matches, hts]
    | some ts => cases i <;> cases b <;> simp [Matches, hts]

/-- The rules stored under a family. -/
theorem mem_push (m : List (Option Str × List Rule)) (fam k : Option Str) (r x : Rule) :
    x ∈ (mget (push m fam r) k).getD [] ↔ x ∈ (mget m k).getD [] ∨ (k = fam ∧ x = r) := by
  unfold push
  rw [mget_mset]
  by_cases h : k = fam
  · subst h
    simp
  · rw [if_neg (by simpa using h)]
    simp [h]

theorem mem_rulesFor (m : List (Option Str × List Rule)) (f : Str) (x : Rule) :
    x ∈ rulesFor m f ↔ ∃ fam, (fam = none ∨ fam = some f) ∧ x ∈ (mget m fam).getD [] := by
  unfold rulesFor
  rw [List.mem_append]
  constructor
  · rintro (h | h)
    · exact ⟨some f, Or.inr rfl, h⟩
    · exact ⟨none, Or.inl rfl, h⟩
  · rintro ⟨fam, rfl | rfl, h⟩
    · exact Or.inr h
    · exact Or.inl h

theorem build_snoc (adds : List Add) (a : Add) : build (adds ++ [a]) =
    match a with
    | .exclusion fam r => (build adds).addExclusion fam r
    | .inclusion fam r => (build adds).addInclusion fam r := by
  unfold build
  rw [List.foldl_append]
  cases a <;> rfl

/-- The rules of a filter are the rules added. -/
theorem build_rules (adds : List Add) (fam : Option Str) (r : Rule) :
    (r ∈ (mget (build adds).excludes fam).getD [] ↔ Add.exclusion fam r ∈ adds) ∧
      (r ∈ (mget (build adds).includes fam).getD [] ↔ Add.inclusion fam r ∈ adds) := by
  induction adds using List.reverseRecOn with
  | nil => simp [build, PackageFilter.new, mget_nil]
  | append_singleton adds a ih =>
    rw [build_snoc]
    cases a with
    | exclusion fam' r' =>
      simp only [PackageFilter.addExclusion, mem_push, ih, List.mem_append, List.mem_singleton]
      simp
    | inclusion fam' r' =>
      simp only [PackageFilter.addInclusion, mem_push, ih, List.mem_append, List.mem_singleton]
      simp

theorem excluded_iff (f : PackageFilter) (p : Package) : f.excluded p = true ↔
    (∃ r ∈ rulesFor f.excludes p.name, Matches p r) ∧ ¬ ∃ r ∈ rulesFor f.includes p.name, Matches p r := by
  have key : ∀ l : List Rule, (l.any fun r => r.matches p) = true ↔ ∃ r ∈ l, Matches p r := by
    intro l
    simp [List.any_eq_true, matches_iff]
  unfold PackageFilter.excluded
  rw [← key, ← key]
  cases (rulesFor f.excludes p.name).any fun r => r.matches p <;>
    cases (rulesFor f.includes p.name).any fun r => r.matches p <;> simp

end FilterLemmas
open FilterLemmas

/-- C56: after any sequence of calls, a package is filtered out exactly when an exclusion for its family or for all
packages matches it and no inclusion for its family or for all packages does. -/
theorem C56_exact (adds : List Add) (p : Package) : (build adds).excluded p = true ↔ FilteredOut adds p := by
  rw [excluded_iff]
  unfold FilteredOut Concerns
  simp only [mem_rulesFor]
  constructor
  · rintro ⟨⟨r, ⟨fam, hf, hr⟩, hm⟩, hno⟩
    refine ⟨⟨fam, r, ((build_rules adds fam r).1).mp hr, hf, hm⟩, ?_⟩
    rintro ⟨fam', r', ha, hf', hm'⟩
    exact hno ⟨r', ⟨fam', hf', ((build_rules adds fam' r').2).mpr ha⟩, hm'⟩
  · rintro ⟨⟨fam, r, ha, hf, hm⟩, hno⟩
    refine ⟨⟨r, ⟨fam, hf, ((build_rules adds fam r).1).mpr ha⟩, hm⟩, ?_⟩
    rintro ⟨r', ⟨fam', hf', hr'⟩, hm'⟩
    exact hno ⟨fam', r', ((build_rules adds fam' r').2).mp hr', hf', hm'⟩

/-- C56: one more exclusion never lets more packages through. -/
theorem C56_more_exclusions (adds : List Add) (fam : Option Str) (r : Rule) (p : Package)
    (h : (build adds).excluded p = true) : ((build adds).addExclusion fam r).excluded p = true := by
  have : (build adds).addExclusion fam r = build (adds ++ [.exclusion fam r]) := (build_snoc adds (.exclusion fam r)).symm
  rw [this, C56_exact]
  obtain ⟨⟨fam', r', ha, hf, hm⟩, hno⟩ := (C56_exact adds p).mp h
  refine ⟨⟨fam', r', List.mem_append_left _ ha, hf, hm⟩, ?_⟩
  rintro ⟨fam'', r'', ha', hf', hm'⟩
  rcases List.mem_append.mp ha' with ha' | ha'
  · exact hno ⟨fam'', r'', ha', hf', hm'⟩
  · simp at ha'

/-- C56: one more inclusion never lets fewer packages through. -/
theorem C56_more_inclusions (adds : List Add) (fam : Option Str) (r : Rule) (p : Package)
    (h : (build adds).excluded p = false) : ((build adds).addInclusion fam r).excluded p = false := by
  have : (build adds).addInclusion fam r = build (adds ++ [.inclusion fam r]) := (build_snoc adds (.inclusion fam r)).symm
  rw [this]
  cases hx : (build (adds ++ [.inclusion fam r])).excluded p with
  | false => rfl
  | true =>
    obtain ⟨⟨fam', r', ha, hf, hm⟩, hno⟩ := (C56_exact _ p).mp hx
    have : (build adds).excluded p = true := by
      rw [C56_exact]
      refine ⟨⟨fam', r', ?_, hf, hm⟩, ?_⟩
      · rcases List.mem_append.mp ha with ha | ha
        · exact ha
        · simp at ha
      · rintro ⟨fam'', r'', ha', hf', hm'⟩
        exact hno ⟨fam'', r'', List.mem_append_left _ ha', hf', hm'⟩
    rw [this] at h
    cases h

/-- C56: filtering keeps exactly the packages not filtered out, in their order; a list of filters filters out what one
of them does. -/
theorem C56_lists (hist : List (List Add)) (ps : List Package) (p : Package) :
    (listFilterPackages (hist.map build) ps).Sublist ps ∧
    (p ∈ listFilterPackages (hist.map build) ps ↔ p ∈ ps ∧ ∀ adds ∈ hist, ¬ FilteredOut adds p) ∧
    (∀ adds, (build adds).filterPackages ps = listFilterPackages [build adds] ps) := by
  refine ⟨List.filter_sublist, ?_, ?_⟩
  · unfold listFilterPackages listExcluded
    rw [List.mem_filter]
    simp only [Bool.not_eq_eq_eq_not, Bool.not_true, List.any_eq_false, List.mem_map, forall_exists_index, and_imp,
      forall_apply_eq_imp_iff₂]
    refine and_congr_right fun _ => forall₂_congr fun adds _ => ?_
    rw [← C56_exact]
  · intro adds
    unfold PackageFilter.filterPackages listFilterPackages listExcluded
    simp

/-- A package for the examples. -/
def fpk (name : Str) (v : Str) (t : Option Int) : Package := ⟨name, Version.parse v, [], [], [], t⟩

/-- An engine whose globs match a text that is the pattern, everything for `*`. -/
def demoEngine : Engine where
  glob := fun p => some fun s => p == c!"*" || s == p
  regex := fun p => some fun s => s == p

def demoAdds : List Add :=
  [.exclusion none (.glob c!"*" fun _ => true), .inclusion (some c!"maya") (.time 10 true true)]

example : (build demoAdds).excluded (fpk c!"maya" c!"1.0" (some 10)) = false ∧
    (build demoAdds).excluded (fpk c!"maya" c!"1.0" (some 11)) = true ∧
    (build demoAdds).excluded (fpk c!"nuke" c!"1.0" (some 10)) = true := by decide +kernel

/-! ## C57 -/

namespace FilterLemmas

theorem trim_id {s : Str} {a z : Char} (h : s.head? = some a) (hz : s.getLast? = some z) (ha : isWs a = false)
    (hzw : isWs z = false) : trim s = s := by
  apply trim_of_trimmed
  constructor
  · intro c hc
    rw [h] at hc
    cases hc
    exact ha
  · intro c hc
    rw [hz] at hc
    cases hc
    exact hzw

theorem between_of (pre : Str) (inner : Str) : between pre (pre ++ inner ++ c!")") = some inner := by
  unfold between
  have h1 : pre.isPrefixOf (pre ++ inner ++ c!")") = true := by
    rw [List.append_assoc]
    exact List.isPrefixOf_iff_prefix.mpr (List.prefix_append _ _)
  have h2 : (pre ++ inner ++ c!")").getLast? = some ')' := by simp
  rw [h1, h2]
  simp only [Bool.and_self, beq_self_eq_true, if_true]
  rw [List.append_assoc, List.drop_left]
  simp

theorem between_none {pre s : Str} (h : pre.isPrefixOf s = false) : between pre s = none := by
  unfold between
  rw [h]
  rfl

theorem trim_pod (pre : Str) (a : Char) (h : pre.head? = some a) (ha : isWs a = false) (inner : Str) :
    trim (pre ++ inner ++ c!")") = pre ++ inner ++ c!")" := by
  refine trim_id (a := a) (z := ')') ?_ (by simp) ha (by decide)
  cases pre with
  | nil => cases h
  | cons b pre => exact h

theorem parse_glob (e : Engine) (p : Str) : parseRule e (c!"glob(" ++ p ++ c!")") = Rule.newGlob e p := by
  unfold parseRule
  simp only
  rw [trim_pod _ 'g' rfl (by decide), between_of]

theorem parse_regex (e : Engine) (p : Str) : parseRule e (c!"regex(" ++ p ++ c!")") = Rule.newRegex e p := by
  unfold parseRule
  simp only
  rw [trim_pod _ 'r' rfl (by decide), between_none (by rfl), between_of]

theorem parse_range (e : Engine) (p : Str) : parseRule e (c!"range(" ++ p ++ c!")") = Rule.newRange p := by
  unfold parseRule
  simp only
  rw [trim_pod _ 'r' rfl (by decide), between_none (by rfl), between_none (by rfl), between_of]

theorem parse_time (e : Engine) (inner : Str) : parseRule e (c!"timestamp(" ++ inner ++ c!")") =
    match parseTime inner with
    | some r => r
    | none => parseAuto e (c!"timestamp(" ++ inner ++ c!")") := by
  unfold parseRule
  simp only
  rw [trim_pod _ 't' rfl (by decide), between_none (by rfl), between_none (by rfl), between_none (by rfl), between_of]
  rfl

theorem parse_toPod {e : Engine} {r : Rule} (hm : Made e r) (hr : Readable r) : parseRule e r.toPod = some r := by
  cases r with
  | glob p f =>
    rw [Rule.toPod, parse_glob, Rule.newGlob]
    rw [show e.glob p = some f from hm]
    rfl
  | regex p f =>
    rw [Rule.toPod, parse_regex, Rule.newRegex]
    rw [show e.regex p = some f from hm]
    rfl
  | range q =>
    rw [Rule.toPod, parse_range, Rule.newRange, C20_round_trip_partial q hr]
    rfl
  | time _ _ _ => exact hr.elim

theorem parseAll_some {e : Engine} {rs : List Rule} (h : ∀ r ∈ rs, parseRule e r.toPod = some r) :
    parseAll e (rs.map Rule.toPod) = some rs := by
  induction rs with
  | nil => rfl
  | cons r rs ih =>
    rw [List.map_cons, parseAll, h r List.mem_cons_self, ih fun x hx => h x (List.mem_cons_of_mem _ hx)]
    rfl

theorem parseAll_none {e : Engine} {ss : List Str} {s : Str} (h : s ∈ ss) (hs : parseRule e s = none) :
    parseAll e ss = none := by
  induction ss with
  | nil => cases h
  | cons x ss ih =>
    rw [parseAll]
    rcases List.mem_cons.mp h with rfl | h
    · rw [hs]; rfl
    · rw [ih h]
      cases parseRule e x <;> rfl

theorem foldl_build (xs is : List Rule) :
    is.foldl (fun f r => f.addInclusion none r) (xs.foldl (fun f r => f.addExclusion none r) PackageFilter.new) =
      build (xs.map (Add.exclusion none) ++ is.map (Add.inclusion none)) := by
  unfold build
  rw [List.foldl_append, List.foldl_map, List.foldl_map]

theorem toPod_lists (order : List (Option Str × List Rule) → List (Option Str × List Rule)) (f : PackageFilter) :
    f.toPod order = (((order f.excludes).flatMap Prod.snd).map Rule.toPod,
      ((order f.includes).flatMap Prod.snd).map Rule.toPod) := by
  unfold PackageFilter.toPod
  rw [List.map_flatMap, List.map_flatMap]

theorem nodup_push {m : List (Option Str × List Rule)} (h : (mkeys m).Nodup) (fam : Option Str) (r : Rule) :
    (mkeys (push m fam r)).Nodup := nodup_mset h _ _

theorem build_nodup (adds : List Add) : (mkeys (build adds).excludes).Nodup ∧ (mkeys (build adds).includes).Nodup := by
  induction adds using List.reverseRecOn with
  | nil => exact ⟨List.nodup_nil, List.nodup_nil⟩
  | append_singleton adds a ih =>
    rw [build_snoc]
    cases a with
    | exclusion fam r => exact ⟨nodup_push ih.1 fam r, ih.2⟩
    | inclusion fam r => exact ⟨ih.1, nodup_push ih.2 fam r⟩

theorem mem_values {m l : List (Option Str × List Rule)} (h : (mkeys m).Nodup) (hp : l.Perm m) (r : Rule) :
    r ∈ l.flatMap Prod.snd ↔ ∃ fam, r ∈ (mget m fam).getD [] := by
  rw [List.mem_flatMap]
  constructor
  · rintro ⟨⟨fam, rs⟩, hm, hr⟩
    refine ⟨fam, ?_⟩
    rw [mget_of_mem h (hp.mem_iff.mp hm)]
    exact hr
  · rintro ⟨fam, hr⟩
    cases hg : mget m fam with
    | none => rw [hg] at hr; cases hr
    | some rs =>
      rw [hg] at hr
      exact ⟨(fam, rs), hp.mem_iff.mpr (mget_some_mem hg), hr⟩

end FilterLemmas

/-- C57, partial: a filter of rules for all packages, made of glob and regex patterns and of ranges whose requirements
can be read back (C20), filters the same packages after the conversion to its plain description and back, in whatever
order maps are iterated.  Missing: rules for one family, timestamp rules and other requirements, refuted below and in
C20. -/
theorem C57_round_trip_partial (e : Engine) (order : List (Option Str × List Rule) → List (Option Str × List Rule))
    (ho : ∀ m, (order m).Perm m) (adds : List Add)
    (h : ∀ a ∈ adds, a.family = none ∧ Made e a.rule ∧ Readable a.rule) :
    ∃ f, fromPod e ((build adds).toPod order) = some f ∧ ∀ p, f.excluded p = (build adds).excluded p := by
  have hx : ∀ r, r ∈ (order (build adds).excludes).flatMap Prod.snd ↔ ∃ fam, Add.exclusion fam r ∈ adds := by
    intro r
    rw [mem_values (build_nodup adds).1 (ho _)]
    simp only [build_rules]
  have hi : ∀ r, r ∈ (order (build adds).includes).flatMap Prod.snd ↔ ∃ fam, Add.inclusion fam r ∈ adds := by
    intro r
    rw [mem_values (build_nodup adds).2 (ho _)]
    simp only [build_rules]
  unfold fromPod
  rw [toPod_lists]
  simp only
  rw [parseAll_some, parseAll_some]
  · refine ⟨_, rfl, ?_⟩
    intro p
    simp only
    rw [foldl_build]
    apply Bool.eq_iff_iff.mpr
    rw [C56_exact, C56_exact]
    unfold FilteredOut
    simp only [List.mem_append, List.mem_map, Add.exclusion.injEq, Add.inclusion.injEq, reduceCtorEq, and_false,
      exists_false, or_false, false_or]
    refine and_congr ?_ (not_congr ?_)
    · constructor
      · rintro ⟨fam, r, ⟨r', hr', rfl, rfl⟩, _, hm⟩
        obtain ⟨fam', ha⟩ := (hx r').mp hr'
        have := (h _ ha).1
        exact ⟨fam', r', ha, Or.inl this, hm⟩
      · rintro ⟨fam, r, ha, _, hm⟩
        exact ⟨none, r, ⟨r, (hx r).mpr ⟨fam, ha⟩, rfl, rfl⟩, Or.inl rfl, hm⟩
    · constructor
      · rintro ⟨fam, r, ⟨r', hr', rfl, rfl⟩, _, hm⟩
        obtain ⟨fam', ha⟩ := (hi r').mp hr'
        have := (h _ ha).1
        exact ⟨fam', r', ha, Or.inl this, hm⟩
      · rintro ⟨fam, r, ha, _, hm⟩
        exact ⟨none, r, ⟨r, (hi r).mpr ⟨fam, ha⟩, rfl, rfl⟩, Or.inl rfl, hm⟩
  · intro r hr
    obtain ⟨fam, ha⟩ := (hi r).mp hr
    exact parse_toPod (h _ ha).2.1 (h _ ha).2.2
  · intro r hr
    obtain ⟨fam, ha⟩ := (hx r).mp hr
    exact parse_toPod (h _ ha).2.1 (h _ ha).2.2

/-- C57 is false for rules of one family: after the round trip an exclusion for maya excludes nuke too, in every
order of iteration. -/
theorem C57_family_false (order : List (Option Str × List Rule) → List (Option Str × List Rule))
    (ho : ∀ m, (order m).Perm m) :
    ∃ adds f p, fromPod demoEngine ((build adds).toPod order) = some f ∧
      (∀ a ∈ adds, Made demoEngine a.rule) ∧ (build adds).excluded p = false ∧ f.excluded p = true := by
  have h1 : ∀ x, order [x] = [x] := fun x => List.perm_singleton.mp (ho [x])
  have h0 : order [] = [] := List.perm_nil.mp (ho [])
  refine ⟨[.exclusion (some c!"maya") (.glob c!"*" fun s => c!"*" == c!"*" || s == c!"*")],
    build [.exclusion none (.glob c!"*" fun s => c!"*" == c!"*" || s == c!"*")], fpk c!"nuke" c!"1.0" none, ?_, ?_,
    by decide +kernel, by decide +kernel⟩
  · show fromPod demoEngine (PackageFilter.toPod order ⟨[(some c!"maya", [_])], []⟩) = _
    rw [toPod_lists]
    simp only
    rw [h1, h0]
    rfl
  · intro a ha
    rw [List.mem_singleton] at ha
    subst ha
    rfl

namespace FilterLemmas

theorem intText_chars (n : Int) : ∀ c ∈ intText n, c = '-' ∨ isDigit c = true := by
  intro c hc
  unfold intText at hc
  have hd := List.all_eq_true.mp (decimal_digits n.natAbs)
  split at hc
  · rcases List.mem_cons.mp hc with rfl | hc
    · exact Or.inl rfl
    · exact Or.inr (hd c hc)
  · exact Or.inr (hd c hc)

theorem not_mem_intText (n : Int) (c : Char) (h1 : c ≠ '-') (h2 : isDigit c = false) : c ∉ intText n := by
  intro hc
  rcases intText_chars n c hc with h | h
  · exact h1 h
  · rw [h2] at h; cases h

theorem parseI64_intText {n : Int} (h1 : -(2 ^ 63) ≤ n) (h2 : n < 2 ^ 63) : parseI64 (intText n) = some n := by
  have hne := decimal_ne n.natAbs
  have hd := decimal_digits n.natAbs
  have hv := decimal_val n.natAbs
  unfold intText
  split
  · rename_i hneg
    unfold parseI64
    simp only
    rw [if_pos]
    · rw [hv]; congr 1; omega
    · simp only [Bool.and_eq_true, Bool.not_eq_true', List.isEmpty_eq_false_iff, decide_eq_true_eq]
      exact ⟨⟨hne, hd⟩, by rw [hv]; omega⟩
  · rename_i hneg
    have hkey : (if !(decimal n.natAbs).isEmpty && (decimal n.natAbs).all isDigit &&
        decide (digitsVal (decimal n.natAbs) < 2 ^ 63) then some ((digitsVal (decimal n.natAbs) : Nat) : Int) else none) = some n := by
      rw [if_pos]
      · rw [hv]; congr 1; omega
      · simp only [Bool.and_eq_true, Bool.not_eq_true', List.isEmpty_eq_false_iff, decide_eq_true_eq]
        exact ⟨⟨hne, hd⟩, by rw [hv]; omega⟩
    cases hc : decimal n.natAbs with
    | nil => exact absurd hc hne
    | cons c cs =>
      rw [hc] at hkey hd
      have hdc : isDigit c = true := List.all_eq_true.mp hd c List.mem_cons_self
      unfold parseI64
      split
      · rename_i heq; cases heq; exact absurd hdc (by decide)
      · rename_i heq; cases heq; exact absurd hdc (by decide)
      · exact hkey

/-- A strict timestamp rule cannot be read back. -/
theorem parse_strict (e : Engine) (t : Int) (before : Bool) : parseRule e (Rule.time t false before).toPod = none := by
  have hc : ':' ∉ intText t := not_mem_intText t _ (by decide) (by decide)
  have hs : '*' ∉ intText t := not_mem_intText t _ (by decide) (by decide)
  have hq : '?' ∉ intText t := not_mem_intText t _ (by decide) (by decide)
  have hb : '[' ∉ intText t := not_mem_intText t _ (by decide) (by decide)
  have key : ∀ kind : Str, ':' ∉ kind → '*' ∉ kind → '?' ∉ kind → '[' ∉ kind →
      parseRule e (c!"timestamp(" ++ (kind ++ intText t) ++ c!")") = none := by
    intro kind k1 k2 k3 k4
    rw [parse_time]
    have : parseTime (kind ++ intText t) = none := by
      unfold parseTime
      rw [splitOnce_absent (by simp [k1, hc])]
    rw [this]
    unfold parseAuto
    simp [k2, k3, k4, hs, hq, hb]
  unfold Rule.toPod
  cases before
  · have := key c!"after" (by decide) (by decide) (by decide) (by decide)
    simpa using this
  · have := key c!"before" (by decide) (by decide) (by decide) (by decide)
    simpa using this

/-- An inclusive timestamp rule is read back as a strict one. -/
theorem parse_inclusive (e : Engine) {t : Int} (h1 : -(2 ^ 63) ≤ t) (h2 : t < 2 ^ 63) (before : Bool) :
    parseRule e (Rule.time t true before).toPod = some (.time t false before) := by
  have key : ∀ kind : Str, ':' ∉ kind → parseRule e (c!"timestamp(" ++ (kind ++ c!":" ++ intText t) ++ c!")") =
      match parseTime (kind ++ c!":" ++ intText t) with
      | some r => r
      | none => parseAuto e (c!"timestamp(" ++ (kind ++ c!":" ++ intText t) ++ c!")") := fun kind _ => parse_time e _
  have hp : ∀ kind : Str, ':' ∉ kind → parseTime (kind ++ c!":" ++ intText t) =
      if kind = c!"before" then some (some (.time t false true))
      else if kind = c!"after" then some (some (.time t false false)) else none := by
    intro kind hk
    unfold parseTime
    rw [splitOnce_head hk]
    simp only
    rw [parseI64_intText h1 h2]
  unfold Rule.toPod
  cases before
  · have := key c!"after" (by decide)
    rw [hp _ (by decide)] at this
    simpa using this
  · have := key c!"before" (by decide)
    rw [hp _ (by decide)] at this
    simpa using this

end FilterLemmas

/-- C57 is false for every filter with a strict timestamp rule (exclusion or inclusion): its description cannot be
read back at all. -/
theorem C57_timestamp_false (e : Engine) (order : List (Option Str × List Rule) → List (Option Str × List Rule))
    (ho : ∀ m, (order m).Perm m) (adds : List Add) (fam : Option Str) (t : Int) (before : Bool)
    (h : Add.exclusion fam (.time t false before) ∈ adds ∨ Add.inclusion fam (.time t false before) ∈ adds) :
    fromPod e ((build adds).toPod order) = none := by
  unfold fromPod
  rw [toPod_lists]
  simp only
  rcases h with h | h
  · rw [parseAll_none (List.mem_map_of_mem (f := Rule.toPod) ((mem_values (build_nodup adds).1 (ho _) _).mpr
      ⟨fam, ((build_rules adds fam _).1).mpr h⟩)) (parse_strict e t before)]
    rfl
  · rw [parseAll_none (ss := ((order (build adds).includes).flatMap Prod.snd).map Rule.toPod)
      (List.mem_map_of_mem (f := Rule.toPod) ((mem_values (build_nodup adds).2 (ho _) _).mpr
      ⟨fam, ((build_rules adds fam _).2).mpr h⟩)) (parse_strict e t before)]
    cases parseAll e _ <;> rfl

/-- C57 is false for inclusive timestamp rules: they come back strict, so the package released exactly then is let
through, whatever the time. -/
theorem C57_inclusive_false (e : Engine) (t : Int) (h1 : -(2 ^ 63) ≤ t) (h2 : t < 2 ^ 63) (before : Bool) :
    ∃ f, fromPod e ((build [.exclusion none (.time t true before)]).toPod id) = some f ∧
      ∀ p : Package, p.timestamp = some t →
        (build [.exclusion none (.time t true before)]).excluded p = true ∧ f.excluded p = false := by
  refine ⟨build [.exclusion none (.time t false before)], ?_, ?_⟩
  · show fromPod e (PackageFilter.toPod id ⟨[(none, [_])], []⟩) = _
    rw [toPod_lists]
    simp only [id, List.flatMap_cons, List.flatMap_nil, List.append_nil, List.map_cons, List.map_nil]
    unfold fromPod
    simp only
    rw [parseAll, parseAll, parseAll, parse_inclusive e h1 h2]
    rfl
  · intro p hp
    constructor
    · rw [C56_exact]
      refine ⟨⟨none, _, List.mem_cons_self, Or.inl rfl, ?_⟩, by simp⟩
      cases before
      · exact ⟨t, hp, Int.le_refl t⟩
      · exact ⟨t, hp, Int.le_refl t⟩
    · cases hx : (build [.exclusion none (.time t false before)]).excluded p with
      | false => rfl
      | true =>
        obtain ⟨⟨fam, r, ha, _, hm⟩, _⟩ := (C56_exact _ p).mp hx
        simp only [List.mem_singleton, Add.exclusion.injEq] at ha
        obtain ⟨_, rfl⟩ := ha
        cases before
        · obtain ⟨ts, hts, hlt⟩ := hm
          rw [hp] at hts; cases hts; omega
        · obtain ⟨ts, hts, hlt⟩ := hm
          rw [hp] at hts; cases hts; omega

-- the hypotheses of C57 hold for a filter with a glob, a regex and a range
example : ∃ q : Requirement, Requirement.parse c!"maya>=2.0" = some q ∧
    (∀ a ∈ [Add.exclusion none (.glob c!"*" fun s => c!"*" == c!"*" || s == c!"*"),
        Add.inclusion none (.regex c!"maya" fun s => s == c!"maya"), Add.inclusion none (.range q)],
      a.family = none ∧ Made demoEngine a.rule ∧ Readable a.rule) := by
  refine ⟨⟨c!"maya", some (.greaterThanOrEqual ⟨[c!"2", c!"0"], [c!"."], c!"2.0"⟩), false, false, [], [], none⟩,
    by rfl, ?_⟩
  intro a ha
  simp only [List.mem_cons, List.not_mem_nil, or_false] at ha
  rcases ha with rfl | rfl | rfl
  · exact ⟨rfl, rfl, trivial⟩
  · exact ⟨rfl, rfl, trivial⟩
  · refine ⟨rfl, ⟨c!"maya>=2.0", by rfl⟩, ?_⟩
    exact ⟨⟨by decide, by decide⟩, by simp, by decide, .op .ge _ ⟨⟨c!"2.0", rfl⟩, by decide⟩, by simp, by simp⟩

end Rez.Props
