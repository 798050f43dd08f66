import Verif.Spec.RuleFilter
import Verif.Props.Filter
import Verif.Lemmas.Range
/-!
# C56, C57, C99, C100: package filters that keep their rules as text
-/
namespace Rez.Props
open Rez Rez.RuleFilter Rez.Spec.RuleFilter

namespace RuleFilterLemmas

theorem inner_of (pre body : Str) : inner pre (pre ++ body ++ c!")") = some body := by
  unfold inner
  have h1 : pre.isPrefixOf (pre ++ body ++ c!")") = true := by
    rw [List.append_assoc]
    exact List.isPrefixOf_iff_prefix.mpr (List.prefix_append _ _)
  rw [h1]
  simp only [if_true]
  rw [List.append_assoc, List.drop_left]
  simp

theorem prefix_of (pre body : Str) : pre.isPrefixOf (pre ++ body ++ c!")") = true := by
  rw [List.append_assoc]
  exact List.isPrefixOf_iff_prefix.mpr (List.prefix_append _ _)

theorem parse_glob (e : Engine) (body : Str) : parseRule e (c!"glob(" ++ body ++ c!")") =
    (fieldAndPattern [.name, .version, .description] body).bind fun x => newGlob x.2 x.1 none := by
  unfold parseRule
  rw [if_pos (prefix_of _ _), parseGlob, inner_of]
  rfl

theorem parse_regex (e : Engine) (body : Str) : parseRule e (c!"regex(" ++ body ++ c!")") =
    (fieldAndPattern [.name, .description] body).bind fun x => newRegex e x.2 x.1 none := by
  unfold parseRule
  rw [if_neg (by rw [show c!"glob(".isPrefixOf (c!"regex(" ++ body ++ c!")") = false from rfl]; simp),
    if_pos (prefix_of _ _), parseRegex, inner_of]
  rfl

theorem parse_range (e : Engine) (body : Str) : parseRule e (c!"range(" ++ body ++ c!")") = parseRangeInner body := by
  unfold parseRule
  rw [if_neg (by rw [show c!"glob(".isPrefixOf (c!"range(" ++ body ++ c!")") = false from rfl]; simp),
    if_neg (by rw [show c!"regex(".isPrefixOf (c!"range(" ++ body ++ c!")") = false from rfl]; simp),
    if_pos (prefix_of _ _), parseRange, if_pos (prefix_of _ _), inner_of]
  rfl

theorem parse_before (e : Engine) (body : Str) : parseRule e (c!"before(" ++ body ++ c!")") = parseSecs body true := by
  unfold parseRule
  rw [if_neg (by rw [show c!"glob(".isPrefixOf (c!"before(" ++ body ++ c!")") = false from rfl]; simp),
    if_neg (by rw [show c!"regex(".isPrefixOf (c!"before(" ++ body ++ c!")") = false from rfl]; simp),
    if_neg (by rw [show c!"range(".isPrefixOf (c!"before(" ++ body ++ c!")") = false from rfl]; simp),
    if_pos (prefix_of _ _), parseTime, if_pos (prefix_of _ _), inner_of]
  rfl

theorem parse_after (e : Engine) (body : Str) : parseRule e (c!"after(" ++ body ++ c!")") = parseSecs body false := by
  unfold parseRule
  rw [if_neg (by rw [show c!"glob(".isPrefixOf (c!"after(" ++ body ++ c!")") = false from rfl]; simp),
    if_neg (by rw [show c!"regex(".isPrefixOf (c!"after(" ++ body ++ c!")") = false from rfl]; simp),
    if_neg (by rw [show c!"range(".isPrefixOf (c!"after(" ++ body ++ c!")") = false from rfl]; simp),
    if_neg (by rw [show c!"before(".isPrefixOf (c!"after(" ++ body ++ c!")") = false from rfl]; simp),
    if_pos (prefix_of _ _), parseTime,
    if_neg (by rw [show c!"before(".isPrefixOf (c!"after(" ++ body ++ c!")") = false from rfl]; simp),
    if_pos (prefix_of _ _), inner_of]
  rfl

theorem fieldAndPattern_of (fields : List Field) (f : Field) (h : f ∈ fields) (p : Str) :
    fieldAndPattern fields (f.text ++ c!":" ++ p) = some (f, p) := by
  have h1 : ':' ∉ f.text := by cases f <;> decide
  unfold fieldAndPattern
  rw [splitOnce_head h1]
  simp only
  have : (fields.find? fun x => x.text == f.text) = some f := by
    have hinj : ∀ a b : Field, a.text = b.text → a = b := by
      intro a b; cases a <;> cases b <;> first | (intro _; rfl) | (intro h; exact absurd h (by decide))
    cases hf : fields.find? fun x => x.text == f.text with
    | none => exact absurd (List.find?_eq_none.mp hf f h) (by simp)
    | some x =>
      have := List.find?_some hf
      rw [hinj x f (by simpa using this)]
  rw [this]
  rfl

theorem parseSecs_of (n : Nat) (h : n < 2 ^ 63) (before : Bool) :
    parseSecs (decimal n) before = some (.time ((n : Int) * 10 ^ 9) before none) := by
  have h1 := FilterLemmas.parseI64_intText (n := (n : Int)) (by omega) (by exact_mod_cast h)
  have : Rez.Filter.intText (n : Int) = decimal n := by
    unfold Rez.Filter.intText
    rw [if_neg (by omega)]
    rfl
  rw [this] at h1
  unfold parseSecs
  rw [h1]
  simp only
  rw [if_neg (by omega)]

theorem secs_whole (n : Nat) : secs ((n : Int) * 10 ^ 9) = n := by
  unfold secs
  omega

theorem secs_lt {nanos : Int} (h : nanos < 2 ^ 63 * 10 ^ 9) : secs nanos < 2 ^ 63 := by
  unfold secs
  omega

theorem newRange_str {s : Str} {fam : Option Str} {r : Rule} (h : newRange s fam = some r) :
    ∃ v, VersionRange.parse s = some v ∧ v.rangeStr = s ∧ r = .range v fam := by
  unfold newRange at h
  cases hp : VersionRange.parse s with
  | none => rw [hp] at h; cases h
  | some v =>
    rw [hp] at h
    cases h
    exact ⟨v, rfl, (wf_parse hp).2.2, rfl⟩

/-- Families in range rules have no dash. -/
def PlainFamily : Rule → Prop
  | .range _ (some fam) => '-' ∉ fam
  | _ => True

/-- The stored form of a rule is read as a rule with the same stored form. -/
theorem stored {e : Engine} {r : Rule} (h : Made e r) (hp : PlainFamily r) :
    ∃ r', parseRule e (podText r.toPod) = some r' ∧ r'.toPod = r.toPod := by
  cases h with
  | @glob p f fam r h =>
    unfold newGlob at h
    split at h
    · cases h
    · rename_i hne
      cases h
      refine ⟨.glob p f none, ?_, rfl⟩
      show parseRule e (c!"glob(" ++ (f.text ++ c!":" ++ p) ++ c!")") = _
      rw [parse_glob, fieldAndPattern_of _ f (by cases f <;> simp)]
      simp only [Option.bind_some]
      unfold newGlob
      rw [if_neg hne]
  | @regex p f fam r hf h =>
    unfold newRegex at h
    cases hc : e p with
    | none => rw [hc] at h; cases h
    | some g =>
      rw [hc] at h
      cases h
      refine ⟨.regex p g f none, ?_, rfl⟩
      show parseRule e (c!"regex(" ++ (f.text ++ c!":" ++ p) ++ c!")") = _
      rw [parse_regex, fieldAndPattern_of _ f (by cases f <;> simp at hf ⊢)]
      simp only [Option.bind_some]
      unfold newRegex
      rw [hc]
      rfl
  | @range s fam r h =>
    obtain ⟨v, hv, hstr, rfl⟩ := newRange_str h
    cases fam with
    | some fam =>
      refine ⟨.range v (some fam), ?_, rfl⟩
      show parseRule e (c!"range(" ++ (fam ++ c!"-" ++ v.rangeStr) ++ c!")") = _
      rw [parse_range, parseRangeInner, splitOnce_head hp]
      simp only
      rw [hstr, hv]
    | none =>
      show ∃ r', parseRule e (c!"range(" ++ v.rangeStr ++ c!")") = some r' ∧ _
      rw [parse_range, parseRangeInner, hstr]
      cases hsp : splitOnce c!"-" s with
      | none =>
        exact ⟨.range v none, by rw [← h], by show (_, v.rangeStr) = _; rfl⟩
      | some x =>
        obtain ⟨a, b⟩ := x
        simp only
        cases hb : VersionRange.parse b with
        | none => exact ⟨.range v none, by simp only; exact h, rfl⟩
        | some w =>
          refine ⟨.range w (some a), rfl, ?_⟩
          show (c!"range", a ++ c!"-" ++ w.rangeStr) = (c!"range", v.rangeStr)
          rw [(wf_parse hb).2.2, hstr, ← splitOnce_eq hsp]
  | time nanos before fam hn =>
    refine ⟨.time ((secs nanos : Nat) * 10 ^ 9) before none, ?_, ?_⟩
    · cases before
      · exact (parse_after e (decimal (secs nanos))).trans (parseSecs_of _ (secs_lt hn) false)
      · exact (parse_before e (decimal (secs nanos))).trans (parseSecs_of _ (secs_lt hn) true)
    · simp only [Rule.toPod]
      rw [secs_whole]

theorem build_snoc (adds : List Add) (a : Add) : build (adds ++ [a]) =
    match a with
    | .exclusion r => (build adds).addExclusion r
    | .inclusion r => (build adds).addInclusion r := by
  unfold build
  rw [List.foldl_append]
  cases a <;> rfl

/-- The exclusions among the calls, in order; likewise the inclusions. -/
def excl (adds : List Add) : List Rule := adds.filterMap fun a => match a with | .exclusion r => some r | _ => none
def incl (adds : List Add) : List Rule := adds.filterMap fun a => match a with | .inclusion r => some r | _ => none

theorem build_eq (adds : List Add) : build adds = ⟨(excl adds).map Rule.toPod, (incl adds).map Rule.toPod⟩ := by
  induction adds using List.reverseRecOn with
  | nil => rfl
  | append_singleton adds a ih =>
    rw [build_snoc, ih]
    unfold excl incl
    rw [List.filterMap_append, List.filterMap_append]
    cases a with
    | exclusion r => simp [PackageFilter.addExclusion]
    | inclusion r => simp [PackageFilter.addInclusion]

theorem mem_excl {adds : List Add} {r : Rule} : r ∈ excl adds ↔ Add.exclusion r ∈ adds := by
  unfold excl
  rw [List.mem_filterMap]
  constructor
  · rintro ⟨a, ha, h⟩
    cases a with
    | exclusion r' => cases h; exact ha
    | inclusion r' => cases h
  · intro h
    exact ⟨_, h, rfl⟩

theorem mem_incl {adds : List Add} {r : Rule} : r ∈ incl adds ↔ Add.inclusion r ∈ adds := by
  unfold incl
  rw [List.mem_filterMap]
  constructor
  · rintro ⟨a, ha, h⟩
    cases a with
    | exclusion r' => cases h
    | inclusion r' => cases h; exact ha
  · intro h
    exact ⟨_, h, rfl⟩

theorem podMatches_of {e : Engine} {r : Rule} (h : parseRule e (podText r.toPod) = some r) (p : Pkg) :
    podMatches e p r.toPod = r.apply e p := by
  unfold podMatches
  rw [h]

/-- Text of a rule is read as that rule, for every rule that was itself read from text. -/
theorem reread {e : Engine} {txt : Str} {r : Rule} (h : parseRule e txt = some r) :
    parseRule e (podText r.toPod) = some r := by
  have hglob : ∀ {p : Str} {f : Field} {r : Rule}, newGlob p f none = some r → parseRule e (podText r.toPod) = some r := by
    intro p f r h
    unfold newGlob at h
    split at h
    · cases h
    · rename_i hne
      cases h
      show parseRule e (c!"glob(" ++ (f.text ++ c!":" ++ p) ++ c!")") = _
      rw [parse_glob, fieldAndPattern_of _ f (by cases f <;> simp)]
      simp only [Option.bind_some]
      unfold newGlob
      rw [if_neg hne]
  have hrange : ∀ {s : Str} {r : Rule}, parseRangeInner s = some r → parseRule e (podText r.toPod) = some r := by
    intro s r h
    have hs := h
    unfold parseRangeInner at h
    cases hsp : splitOnce c!"-" s with
    | none =>
      rw [hsp] at h
      simp only at h
      obtain ⟨v, hv, hstr, rfl⟩ := newRange_str h
      show parseRule e (c!"range(" ++ v.rangeStr ++ c!")") = _
      rw [parse_range, hstr, hs]
    | some x =>
      obtain ⟨a, b⟩ := x
      rw [hsp] at h
      simp only at h
      cases hb : VersionRange.parse b with
      | none =>
        rw [hb] at h
        simp only at h
        obtain ⟨v, hv, hstr, rfl⟩ := newRange_str h
        show parseRule e (c!"range(" ++ v.rangeStr ++ c!")") = _
        rw [parse_range, hstr, hs]
      | some w =>
        rw [hb] at h
        cases h
        show parseRule e (c!"range(" ++ (a ++ c!"-" ++ w.rangeStr) ++ c!")") = _
        rw [parse_range, (wf_parse hb).2.2, ← splitOnce_eq hsp, hs]
  have hsecs : ∀ {s : Str} {b : Bool} {r : Rule}, parseSecs s b = some r → parseRule e (podText r.toPod) = some r := by
    intro s b r h
    unfold parseSecs at h
    cases ht : parseI64 s with
    | none => rw [ht] at h; cases h
    | some t =>
      rw [ht] at h
      simp only at h
      split at h
      · cases h
      · rename_i hneg
        cases h
        have hlt : t < 2 ^ 63 := by
          unfold parseI64 at ht
          split at ht
          · split at ht
            · cases ht; omega
            · cases ht
          · split at ht
            · rename_i hcond
              cases ht
              simp only [Bool.and_eq_true, decide_eq_true_eq] at hcond
              exact_mod_cast hcond.2
            · cases ht
          · split at ht
            · rename_i hcond
              cases ht
              simp only [Bool.and_eq_true, decide_eq_true_eq] at hcond
              exact_mod_cast hcond.2
            · cases ht
        obtain ⟨n, rfl⟩ : ∃ n : Nat, t = n := ⟨t.toNat, by omega⟩
        have hn : secs ((n : Int) * 10 ^ 9) = n := secs_whole n
        cases b
        · show parseRule e (c!"after(" ++ decimal (secs _) ++ c!")") = _
          rw [hn, parse_after]
          exact parseSecs_of n (by exact_mod_cast hlt) false
        · show parseRule e (c!"before(" ++ decimal (secs _) ++ c!")") = _
          rw [hn, parse_before]
          exact parseSecs_of n (by exact_mod_cast hlt) true
  have htime : ∀ {txt : Str} {r : Rule}, parseTime txt = some r → parseRule e (podText r.toPod) = some r := by
    intro txt r h
    unfold parseTime at h
    split at h
    · obtain ⟨s, _, hs⟩ := Option.bind_eq_some_iff.mp h
      exact hsecs hs
    · split at h
      · obtain ⟨s, _, hs⟩ := Option.bind_eq_some_iff.mp h
        exact hsecs hs
      · cases h
  unfold parseRule at h
  split at h
  · obtain ⟨s, _, hs⟩ := Option.bind_eq_some_iff.mp h
    obtain ⟨x, _, hx⟩ := Option.bind_eq_some_iff.mp hs
    exact hglob hx
  · split at h
    · obtain ⟨s, _, hs⟩ := Option.bind_eq_some_iff.mp h
      obtain ⟨⟨f, p⟩, hfp, hx⟩ := Option.bind_eq_some_iff.mp hs
      have hf : f ∈ [Field.name, .description] := by
        unfold fieldAndPattern at hfp
        split at hfp
        · obtain ⟨y, hy, he⟩ := Option.map_eq_some_iff.mp hfp
          cases he
          exact List.mem_of_find?_eq_some hy
        · cases hfp; simp
      simp only at hx
      unfold newRegex at hx
      obtain ⟨g, hg, rfl⟩ := Option.map_eq_some_iff.mp hx
      show parseRule e (c!"regex(" ++ (f.text ++ c!":" ++ p) ++ c!")") = _
      rw [parse_regex, fieldAndPattern_of _ f hf]
      simp only [Option.bind_some]
      unfold newRegex
      rw [hg]
      rfl
    · split at h
      · rename_i hpre
        unfold parseRange at h
        rw [if_pos hpre] at h
        obtain ⟨s, _, hs⟩ := Option.bind_eq_some_iff.mp h
        exact hrange hs
      · rename_i hpre
        split at h
        · exact htime h
        · split at h
          · exact htime h
          · split at h
            · exact hglob h
            · unfold parseRange at h
              rw [if_neg hpre] at h
              exact hrange h

theorem addAll_of {e : Engine} {add : PackageFilter → Rule → PackageFilter}
    (hadd : ∀ f r r', r.toPod = r'.toPod → add f r = add f r') {rs : List Rule}
    (h : ∀ r ∈ rs, ∃ r', parseRule e (podText r.toPod) = some r' ∧ r'.toPod = r.toPod) (f : PackageFilter) :
    addAll e add f (rs.map fun r => podText r.toPod) = some (rs.foldl add f) := by
  induction rs generalizing f with
  | nil => rfl
  | cons r rs ih =>
    obtain ⟨r', h1, h2⟩ := h r List.mem_cons_self
    rw [List.map_cons, addAll, h1, Option.bind_some, ih fun x hx => h x (List.mem_cons_of_mem _ hx), List.foldl_cons,
      hadd f r' r h2]

end RuleFilterLemmas
open RuleFilterLemmas

/-- C56: for rules read from text, a package is excluded exactly when an exclusion matches it and no inclusion does,
after any sequence of calls; and `includes` is the opposite of `excludes`. -/
theorem C56_text_exact (e : Engine) (adds : List Add) (h : ∀ a ∈ adds, ∃ txt, parseRule e txt = some a.rule) (p : Pkg) :
    (((build adds).excludes e p).isSome = true ↔ FilteredOut e adds p) ∧
    ((build adds).includes e p = true ↔ ¬ FilteredOut e adds p) := by
  have hex : ∀ r ∈ excl adds, podMatches e p r.toPod = r.apply e p := by
    intro r hr
    obtain ⟨txt, ht⟩ := h _ (mem_excl.mp hr)
    exact podMatches_of (reread ht) p
  have hin : ∀ r ∈ incl adds, podMatches e p r.toPod = r.apply e p := by
    intro r hr
    obtain ⟨txt, ht⟩ := h _ (mem_incl.mp hr)
    exact podMatches_of (reread ht) p
  have hany : ((build adds).inclusions.any (podMatches e p)) = true ↔ ∃ r, Add.inclusion r ∈ adds ∧ r.apply e p = true := by
    rw [build_eq]
    simp only [List.any_map, List.any_eq_true, Function.comp_apply]
    constructor
    · rintro ⟨r, hr, hm⟩
      exact ⟨r, mem_incl.mp hr, by rw [← hin r hr]; exact hm⟩
    · rintro ⟨r, hr, hm⟩
      exact ⟨r, mem_incl.mpr hr, by rw [hin r (mem_incl.mpr hr)]; exact hm⟩
  have hx : ((build adds).excludes e p).isSome = true ↔ FilteredOut e adds p := by
    unfold PackageFilter.excludes FilteredOut
    rw [List.find?_isSome, ← hany]
    rw [build_eq]
    simp only [List.mem_map, Bool.and_eq_true, Bool.not_eq_true', exists_exists_and_eq_and]
    constructor
    · rintro ⟨r, hr, hm, hno⟩
      exact ⟨⟨r, mem_excl.mp hr, by rw [← hex r hr]; exact hm⟩, by rw [hno]; simp⟩
    · rintro ⟨⟨r, hr, hm⟩, hno⟩
      exact ⟨r, mem_excl.mpr hr, by rw [hex r (mem_excl.mpr hr)]; exact hm, by simpa using hno⟩
  refine ⟨hx, ?_⟩
  unfold PackageFilter.includes
  split
  · rename_i hi
    have := hany.mp hi
    simp only [true_iff]
    exact fun hf => hf.2 this
  · rw [← hx]
    cases (build adds).excludes e p <;> simp

/-- C56: one more exclusion never admits more packages, one more inclusion never fewer, whatever the rules. -/
theorem C56_text_monotone (e : Engine) (f : PackageFilter) (r : Rule) (p : Pkg) :
    ((f.excludes e p).isSome = true → ((f.addExclusion r).excludes e p).isSome = true) ∧
    ((f.excludes e p).isSome = false → ((f.addInclusion r).excludes e p).isSome = false) := by
  unfold PackageFilter.excludes PackageFilter.addExclusion PackageFilter.addInclusion
  constructor
  · intro h
    rw [List.find?_isSome] at h ⊢
    obtain ⟨x, hx, hm⟩ := h
    exact ⟨x, List.mem_append_left _ hx, hm⟩
  · intro h
    cases hs : (List.find? (fun pod => podMatches e p pod && !(f.inclusions ++ [r.toPod]).any (podMatches e p)) f.exclusions).isSome with
    | false => rfl
    | true =>
      rw [List.find?_isSome] at hs
      obtain ⟨x, hx, hm⟩ := hs
      have : (List.find? (fun pod => podMatches e p pod && !f.inclusions.any (podMatches e p)) f.exclusions).isSome = true := by
        rw [List.find?_isSome]
        refine ⟨x, hx, ?_⟩
        simp only [Bool.and_eq_true, Bool.not_eq_true', List.any_append, Bool.or_eq_false_iff] at hm ⊢
        exact ⟨hm.1, hm.2.1⟩
      rw [this] at h
      cases h

/-- C56 is false for rules that were not read from text: the range rule `1.0-beta` matches version 1.0-beta, but a
filter with that one exclusion, whatever the engine, does not exclude it: the stored text is read as the range `beta`
of family `1.0`. -/
theorem C56_direct_false (e : Engine) : ∃ r p, newRange c!"1.0-beta" none = some r ∧ r.apply e p = true ∧
    (build [.exclusion r]).excludes e p = none :=
  ⟨_, ⟨⟨c!"maya", Version.parse c!"1.0-beta", [], [], [], none⟩, none⟩, rfl, rfl, rfl⟩

/-- C56 is false for times with a fraction of a second: `before` 5.5 s matches a package released at 5 s, but the
filter does not exclude it. -/
theorem C56_fraction_false (e : Engine) : ∃ p, (Rule.time 5500000000 true none).apply e p = true ∧
    (build [.exclusion (.time 5500000000 true none)]).excludes e p = none :=
  ⟨⟨⟨c!"maya", none, [], [], [], some 5⟩, none⟩, rfl, rfl⟩

/-- C57: a filter whose rules were made by the constructors or read from text, with no dash in the families of range
rules, survives the conversion to its plain description and back unchanged. -/
theorem C57_text_partial (e : Engine) (adds : List Add)
    (h : ∀ a ∈ adds, (Made e a.rule ∧ PlainFamily a.rule) ∨ ∃ txt, parseRule e txt = some a.rule) :
    fromPod e (build adds).toPod = some (build adds) := by
  have hr : ∀ a ∈ adds, ∃ r', parseRule e (podText a.rule.toPod) = some r' ∧ r'.toPod = a.rule.toPod := by
    intro a ha
    rcases h a ha with ⟨hm, hp⟩ | ⟨txt, ht⟩
    · exact stored hm hp
    · exact ⟨_, reread ht, rfl⟩
  have hx := addAll_of (e := e) (add := PackageFilter.addExclusion) (rs := excl adds)
    (by intro f r r' h; unfold PackageFilter.addExclusion; rw [h]) (fun r hr' => hr _ (mem_excl.mp hr'))
  have hi := addAll_of (e := e) (add := PackageFilter.addInclusion) (rs := incl adds)
    (by intro f r r' h; unfold PackageFilter.addInclusion; rw [h]) (fun r hr' => hr _ (mem_incl.mp hr'))
  have fx : ∀ (rs : List Rule) (f : PackageFilter), rs.foldl PackageFilter.addExclusion f =
      ⟨f.exclusions ++ rs.map Rule.toPod, f.inclusions⟩ := by
    intro rs
    induction rs with
    | nil => intro f; simp
    | cons r rs ih => intro f; rw [List.foldl_cons, ih]; simp [PackageFilter.addExclusion]
  have fi : ∀ (rs : List Rule) (f : PackageFilter), rs.foldl PackageFilter.addInclusion f =
      ⟨f.exclusions, f.inclusions ++ rs.map Rule.toPod⟩ := by
    intro rs
    induction rs with
    | nil => intro f; simp
    | cons r rs ih => intro f; rw [List.foldl_cons, ih]; simp [PackageFilter.addInclusion]
  unfold fromPod PackageFilter.toPod
  rw [build_eq]
  simp only [List.map_map]
  rw [show (excl adds).map (podText ∘ Rule.toPod) = (excl adds).map fun r => podText r.toPod from rfl,
    show (incl adds).map (podText ∘ Rule.toPod) = (incl adds).map fun r => podText r.toPod from rfl, hx,
    Option.bind_some, hi, fx, fi]
  simp [PackageFilter.new]

/-- C57 is false for a family with a dash: the range `>=1.0` of family `my-pkg` cannot be read back. -/
theorem C57_dash_false (e : Engine) : ∃ r, newRange c!">=1.0" (some c!"my-pkg") = some r ∧
    fromPod e (build [.exclusion r]).toPod = none := ⟨_, rfl, rfl⟩

-- rules of every kind meet the hypotheses, and their filter filters
def demoText : List Str := [c!"range(maya-2024)", c!"before(100)", c!">=2.0"]

example (e : Engine) : (∀ txt ∈ demoText, (parseRule e txt).isSome = true) ∧
    (∃ r, parseRule e c!"range(maya-2024)" = some r ∧ ∃ a b,
      (build [.exclusion r]).excludes e ⟨⟨c!"maya", Version.parse c!"2024", [], [], [], none⟩, none⟩ = some (a, b) ∧
      (build [.exclusion r]).excludes e ⟨⟨c!"nuke", Version.parse c!"2024", [], [], [], none⟩, none⟩ = none) := by
  refine ⟨?_, _, rfl, _, _, rfl, rfl⟩
  intro txt ht
  simp only [demoText, List.mem_cons, List.not_mem_nil, or_false] at ht
  rcases ht with rfl | rfl | rfl <;> rfl

/-! ## C99: rules for one family -/

/-- C99: a range rule for a family matches exactly the packages of that family whose version is in the range. -/
theorem C99_range (e : Engine) (r : VersionRange) (fam : Option Str) (p : Pkg) :
    (Rule.range r fam).apply e p = true ↔
      (∀ f, fam = some f → p.base.name = f) ∧ ∃ v, p.base.version = some v ∧ r.contains v = true := by
  unfold Rule.apply
  cases fam with
  | none => cases p.base.version <;> simp
  | some f =>
    by_cases h : f = p.base.name
    · subst h
      cases p.base.version <;> simp
    · simp only [Option.isSome_some, Bool.true_and, bne_iff_ne, ne_eq, Option.some.injEq]
      rw [if_pos h]
      constructor
      · intro hf
        cases hf
      · rintro ⟨hf, -⟩
        exact absurd (hf f rfl).symm h

/-- C99 is false for the other rules: a family given to a glob, regex or timestamp rule changes nothing, whatever the
package. -/
theorem C99_ignored_false (e : Engine) (fam : Str) (p : Pkg) :
    (∀ pat f, (Rule.glob pat f (some fam)).apply e p = (Rule.glob pat f none).apply e p) ∧
    (∀ pat g f, (Rule.regex pat g f (some fam)).apply e p = (Rule.regex pat g f none).apply e p) ∧
    (∀ t b, (Rule.time t b (some fam)).apply e p = (Rule.time t b none).apply e p) := by
  refine ⟨?_, ?_, fun _ _ => rfl⟩
  · intro pat f
    cases f <;> rfl
  · intro pat g f
    cases f <;> rfl

/-- C99 is false in `rez-next-package`: a rule for the range of one package matches every package with a version in
the range; here `maya>=2.0` excludes nuke 3.0. -/
theorem C99_other_family_false : ∃ r, Rez.Filter.Rule.newRange c!"maya>=2.0" = some r ∧
    (Rez.Filter.PackageFilter.new.addExclusion none r).excluded (fpk c!"nuke" c!"3.0" none) = true := ⟨_, rfl, rfl⟩

/-- C99: a timestamp rule matches exactly the packages released strictly before or after its time, but never one
released before 1970 or at an unknown time. -/
theorem C99_time (e : Engine) (nanos : Int) (before : Bool) (fam : Option Str) (p : Pkg) :
    (Rule.time nanos before fam).apply e p = true ↔ ∃ ts, p.base.timestamp = some ts ∧ 0 ≤ ts ∧
      if before then ts * 10 ^ 9 < nanos else nanos < ts * 10 ^ 9 := by
  unfold Rule.apply
  cases p.base.timestamp with
  | none => simp
  | some ts =>
    simp only
    by_cases h : ts < 0
    · rw [if_pos h]
      simp
      intro h'
      omega
    · rw [if_neg h]
      cases before <;> simp <;> omega

/-- C99 in `rez-next-package`: a timestamp rule matches exactly the packages with a release time before or after its
time, its own time included when the rule says so. -/
theorem C99_package_time (t : Int) (inclusive before : Bool) (p : Package) :
    (Rez.Filter.Rule.time t inclusive before).matches p = true ↔ ∃ ts, p.timestamp = some ts ∧
      ((if before then ts < t else t < ts) ∨ (inclusive = true ∧ ts = t)) := by
  unfold Rez.Filter.Rule.matches
  cases p.timestamp with
  | none => simp
  | some ts =>
    cases before <;> cases inclusive <;> simp <;> omega

/-- C99 in `rez-next-package`: a range rule matches exactly the packages, of any name, whose version satisfies the
constraint; packages without a version and rules without a constraint never match. -/
theorem C99_package_range (q : Requirement) (p : Package) :
    (Rez.Filter.Rule.range q).matches p = true ↔
      ∃ v c, p.version = some v ∧ q.constraint = some c ∧ c.satisfied v = true := by
  unfold Rez.Filter.Rule.matches
  cases hv : p.version <;> cases hc : q.constraint <;> simp [hc]

/-- C99: what the texts of rules stand for: a glob without a field looks at the name, `before(n)` and `after(n)` are
at second `n`, `range(family-range)` is for that family, and a bare text with a star is a glob on the name. -/
theorem C99_texts (e : Engine) :
    (∀ p : Str, p ≠ [] → ':' ∉ p → parseRule e (c!"glob(" ++ p ++ c!")") = some (.glob p .name none)) ∧
    (∀ p : Str, p ≠ [] → parseRule e (c!"glob(description:" ++ p ++ c!")") = some (.glob p .description none)) ∧
    (∀ p f, ':' ∉ p → e p = some f → parseRule e (c!"regex(" ++ p ++ c!")") = some (.regex p f .name none)) ∧
    (∀ n : Nat, n < 2 ^ 63 → parseRule e (c!"before(" ++ decimal n ++ c!")") = some (.time (n * 10 ^ 9) true none) ∧
      parseRule e (c!"after(" ++ decimal n ++ c!")") = some (.time (n * 10 ^ 9) false none)) ∧
    (∀ fam s r, '-' ∉ fam → VersionRange.parse s = some r →
      parseRule e (c!"range(" ++ (fam ++ c!"-" ++ s) ++ c!")") = some (.range r (some fam))) ∧
    (∀ s r, '-' ∉ s → VersionRange.parse s = some r →
      parseRule e (c!"range(" ++ s ++ c!")") = some (.range r none)) ∧
    (∀ s : Str, '*' ∈ s → '(' ∉ s → parseRule e s = some (.glob s .name none)) := by
  have habs : ∀ {p : Str}, ':' ∉ p → splitOnce c!":" p = none := fun h => splitOnce_absent h
  have hg : ∀ {p : Str} (f : Field), p ≠ [] → newGlob p f none = some (.glob p f none) := by
    intro p f h
    unfold newGlob
    rw [if_neg (by simpa using h)]
  refine ⟨?_, ?_, ?_, ?_, ?_, ?_, ?_⟩
  · intro p hne h
    rw [parse_glob, fieldAndPattern, habs h]
    exact hg .name hne
  · intro p hne
    have := parse_glob e (Field.description.text ++ c!":" ++ p)
    rw [fieldAndPattern_of _ .description (by simp)] at this
    exact this.trans (hg .description hne)
  · intro p f h he
    rw [parse_regex, fieldAndPattern, habs h]
    simp only [Option.bind_some]
    unfold newRegex
    rw [he]
    rfl
  · intro n h
    rw [parse_before, parse_after]
    exact ⟨parseSecs_of n h true, parseSecs_of n h false⟩
  · intro fam s r h hr
    rw [parse_range, parseRangeInner, splitOnce_head h]
    simp only
    rw [hr]
  · intro s r h hr
    rw [parse_range, parseRangeInner, splitOnce_absent h]
    simp only
    unfold newRange
    rw [hr]
    rfl
  · intro s hs hp
    have hno : ∀ pre : Str, '(' ∈ pre → ¬ pre.isPrefixOf s = true := by
      intro pre hpre h
      obtain ⟨t, ht⟩ := List.isPrefixOf_iff_prefix.mp h
      exact hp (by rw [← ht]; exact List.mem_append_left _ hpre)
    unfold parseRule
    rw [if_neg (hno _ (by decide)), if_neg (hno _ (by decide)), if_neg (hno _ (by decide)), if_neg (hno _ (by decide)),
      if_neg (hno _ (by decide)), if_pos (by simp [hs])]
    exact hg .name (fun e => by rw [e] at hs; cases hs)

/-! ## C100: globs -/

namespace RuleFilterLemmas

/-- The item of a glob character. -/
def itemOf (c : Char) : Item := if c = '*' then .dotStar else if c = '?' then .dot else .char c

theorem globChar_eq {c : Char} (h : c ≠ '\\') : globChar c = (itemOf c).text := by
  unfold globChar itemOf
  by_cases h1 : c = '*'
  · rw [if_pos h1, if_pos h1]; rfl
  · rw [if_neg h1, if_neg h1]
    by_cases h2 : c = '?'
    · rw [if_pos h2, if_pos h2]; rfl
    · rw [if_neg h2, if_neg h2]
      simp only [Item.text]
      have : c!".()[]{}|^$+".contains c = true ↔ c ∈ meta_ := by
        unfold meta_
        simp only [List.contains_eq_mem, List.mem_cons, List.not_mem_nil, or_false, decide_eq_true_eq]
        tauto
      by_cases hm : c ∈ meta_
      · rw [if_pos (this.mpr hm), if_pos hm]
      · rw [if_neg (fun hh => hm (this.mp hh)), if_neg hm]

theorem globRegex_eq {p : Str} (h : '\\' ∉ p) : globRegex p = c!"^" ++ (p.map itemOf).flatMap Item.text ++ c!"$" := by
  unfold globRegex
  congr 2
  induction p with
  | nil => rfl
  | cons c p ih =>
    rw [List.flatMap_cons, List.map_cons, List.flatMap_cons,
      globChar_eq (fun e => h (by rw [e]; exact List.mem_cons_self)), ih fun hm => h (List.mem_cons_of_mem _ hm)]

theorem items_glob {p s : Str} (h : ItemsMatch (p.map itemOf) s) : Glob p s := by
  induction p generalizing s with
  | nil =>
    cases h
    exact .done
  | cons c p ih =>
    rw [List.map_cons] at h
    by_cases h1 : c = '*'
    · subst h1
      rw [show itemOf '*' = .dotStar from rfl] at h
      cases h with
      | dotStar _ hr => exact .star _ _ (ih hr)
    · by_cases h2 : c = '?'
      · subst h2
        rw [show itemOf '?' = .dot from rfl] at h
        cases h with
        | dot _ hr => exact .any _ (ih hr)
      · rw [show itemOf c = .char c by unfold itemOf; rw [if_neg h1, if_neg h2]] at h
        cases h with
        | char hr => exact .char h1 h2 (ih hr)

theorem glob_items {p s : Str} (h : Glob p s) (hn : '\n' ∉ s) : ItemsMatch (p.map itemOf) s := by
  induction h with
  | done => exact .done
  | star skipped rest _ ih =>
    rw [List.mem_append, not_or] at hn
    exact .dotStar hn.1 (ih hn.2)
  | any c _ ih =>
    rw [List.mem_cons, not_or] at hn
    exact .dot (fun e => hn.1 e.symm) (ih hn.2)
  | char h1 h2 _ ih =>
    rw [List.mem_cons, not_or] at hn
    rw [List.map_cons]
    rename_i c _ _
    rw [show itemOf c = .char c by unfold itemOf; rw [if_neg h1, if_neg h2]]
    exact .char (ih hn.2)

end RuleFilterLemmas

/-- C100, partial: a glob rule matches a text exactly when the whole text fits the pattern, `*` standing for any text,
`?` for any character and anything else for itself; for patterns without a backslash and texts of one line.
Missing: texts with line feeds (refuted below) and backslashes, which the code hands on to the regular expression. -/
theorem C100_glob_partial (e : Engine) (he : EngineOk e) (pattern text : Str) (hp : '\\' ∉ pattern) (ht : '\n' ∉ text) :
    matchesGlob e pattern text = true ↔ Glob pattern text := by
  obtain ⟨f, hf, hm⟩ := he (pattern.map itemOf)
  unfold matchesGlob
  rw [globRegex_eq hp, hf]
  simp only
  rw [hm]
  exact ⟨items_glob, fun h => glob_items h ht⟩

/-- C100: what matches fits the pattern, on any text. -/
theorem C100_sound_partial (e : Engine) (he : EngineOk e) (pattern text : Str) (hp : '\\' ∉ pattern)
    (h : matchesGlob e pattern text = true) : Glob pattern text := by
  obtain ⟨f, hf, hm⟩ := he (pattern.map itemOf)
  unfold matchesGlob at h
  rw [globRegex_eq hp, hf] at h
  exact items_glob ((hm _).mp h)

/-- C100 is false for texts with a line feed: `*` alone does not match any of them. -/
theorem C100_lines_false (e : Engine) (he : EngineOk e) (text : Str) (ht : '\n' ∈ text) :
    matchesGlob e c!"*" text = false ∧ Glob c!"*" text := by
  constructor
  · cases h : matchesGlob e c!"*" text with
    | false => rfl
    | true =>
      obtain ⟨f, hf, hm⟩ := he [.dotStar]
      unfold matchesGlob at h
      rw [show globRegex c!"*" = c!"^" ++ [Item.dotStar].flatMap Item.text ++ c!"$" from rfl, hf] at h
      have := (hm text).mp h
      cases this with
      | dotStar hn hr =>
        cases hr
        rw [List.append_nil] at ht
        exact absurd ht hn
  · have := Glob.star text [] Glob.done
    rwa [List.append_nil] at this

/-- C100 is false for the version field: no pattern matches any version. -/
theorem C100_version_false (e : Engine) (pattern : Str) (fam : Option Str) (p : Pkg) :
    (Rule.glob pattern .version fam).apply e p = false := rfl

example : Glob c!"maya-*.?" c!"maya-2024.b" := by
  refine .char (by decide) (by decide) (.char (by decide) (by decide) (.char (by decide) (by decide)
    (.char (by decide) (by decide) (.char (by decide) (by decide) (.star c!"2024" c!".b" (.char (by decide) (by decide)
    (.any 'b' .done)))))))

namespace RuleFilterLemmas

theorem items_head (is : List Item) : ∀ c rest, is.flatMap Item.text = c :: rest → c ≠ '*' := by
  intro c rest h
  cases is with
  | nil => cases h
  | cons i is =>
    rw [List.flatMap_cons] at h
    cases i with
    | dot => cases h; decide
    | dotStar => cases h; decide
    | char d =>
      simp only [Item.text] at h
      split at h
      · cases h; decide
      · rename_i hm
        cases h
        intro e
        subst e
        exact hm (by decide)

theorem items_inj (is : List Item) : ∀ js : List Item, is.flatMap Item.text = js.flatMap Item.text → is = js := by
  induction is with
  | nil =>
    intro js h
    cases js with
    | nil => rfl
    | cons j js =>
      rw [List.flatMap_cons] at h
      cases j with
      | dot => cases h
      | dotStar => cases h
      | char d => simp only [Item.text] at h; split at h <;> cases h
  | cons i is ih =>
    intro js h
    cases js with
    | nil =>
      rw [List.flatMap_cons] at h
      cases i with
      | dot => cases h
      | dotStar => cases h
      | char d => simp only [Item.text] at h; split at h <;> cases h
    | cons j js =>
      rw [List.flatMap_cons, List.flatMap_cons] at h
      have hdot : '.' ∈ meta_ := by decide
      have hbs : '\\' ∈ meta_ := by decide
      have hst : ∀ ks : List Item, ∀ r, ks.flatMap Item.text = '*' :: r → False := fun ks r hk =>
        items_head ks _ _ hk rfl
      cases i with
      | dot =>
        cases j with
        | dot =>
          simp only [Item.text, List.cons_append, List.nil_append, List.cons.injEq, true_and] at h
          rw [ih _ h]
        | dotStar =>
          simp only [Item.text, List.cons_append, List.nil_append, List.cons.injEq, true_and] at h
          exact (hst _ _ h).elim
        | char d =>
          simp only [Item.text] at h
          split at h
          · simp at h
          · rename_i hm
            simp only [List.cons_append, List.nil_append, List.cons.injEq] at h
            rw [← h.1] at hm
            exact absurd hdot hm
      | dotStar =>
        cases j with
        | dot =>
          simp only [Item.text, List.cons_append, List.nil_append, List.cons.injEq, true_and] at h
          exact (hst _ _ h.symm).elim
        | dotStar =>
          simp only [Item.text, List.cons_append, List.nil_append, List.cons.injEq, true_and] at h
          rw [ih _ h]
        | char d =>
          simp only [Item.text] at h
          split at h
          · simp at h
          · rename_i hm
            simp only [List.cons_append, List.nil_append, List.cons.injEq] at h
            rw [← h.1] at hm
            exact absurd hdot hm
      | char c =>
        cases j with
        | dot =>
          simp only [Item.text] at h
          split at h
          · simp at h
          · rename_i hm
            simp only [List.cons_append, List.nil_append, List.cons.injEq] at h
            rw [h.1] at hm
            exact absurd hdot hm
        | dotStar =>
          simp only [Item.text] at h
          split at h
          · simp at h
          · rename_i hm
            simp only [List.cons_append, List.nil_append, List.cons.injEq] at h
            rw [h.1] at hm
            exact absurd hdot hm
        | char d =>
          simp only [Item.text] at h
          by_cases hc : c ∈ meta_ <;> by_cases hd : d ∈ meta_
          · rw [if_pos hc, if_pos hd] at h
            simp only [List.cons_append, List.nil_append, List.cons.injEq, true_and] at h
            rw [h.1, ih _ h.2]
          · rw [if_pos hc, if_neg hd] at h
            simp only [List.cons_append, List.nil_append, List.cons.injEq] at h
            rw [← h.1] at hd
            exact absurd hbs hd
          · rw [if_neg hc, if_pos hd] at h
            simp only [List.cons_append, List.nil_append, List.cons.injEq] at h
            rw [h.1] at hc
            exact absurd hbs hc
          · rw [if_neg hc, if_neg hd] at h
            simp only [List.cons_append, List.nil_append, List.cons.injEq] at h
            rw [h.1, ih _ h.2]

end RuleFilterLemmas

-- some engine meets the assumption
open Classical in
example : ∃ e, EngineOk e := by
  refine ⟨fun s => some fun t => decide (∃ is : List Item, s = c!"^" ++ is.flatMap Item.text ++ c!"$" ∧ ItemsMatch is t), ?_⟩
  intro is
  refine ⟨_, rfl, ?_⟩
  intro t
  rw [decide_eq_true_eq]
  constructor
  · rintro ⟨js, he, hm⟩
    have := items_inj is js (List.append_cancel_left (List.append_cancel_right he))
    rw [this]
    exact hm
  · exact fun h => ⟨is, rfl, h⟩

end Rez.Props
