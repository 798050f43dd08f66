import Verif.Lemmas.Range
import Verif.Lemmas.RangeTight
/-!
# Properties C10-C18: version ranges

`VersionRange.parse`, `contains`, `intersect`, `union`, `subtract`, `intersects`, `isSubsetOf`, `isAny` and
`isEmpty` model the methods of the same names.  `Built r` says `r` was obtained through the public
constructors and operations, in any order and number.
-/
namespace Rez.Props
open Rez Spec

/-- `<=` is transitive among parsed versions that do not end in a `0` token and whose numbers fit in 64
bits; used to instantiate the theorems below that assume a transitive family of versions. -/
theorem transOn_noTrailingZero :
    TransOn fun v => Parsed v ∧ v.tokens.getLast? ≠ some c!"0" ∧ ∀ t ∈ v.tokens, DigitRunsBelow (2 ^ 64) t := by
  rintro a b c ⟨⟨sa, ha⟩, la, da⟩ ⟨⟨sb, hb⟩, lb, db⟩ ⟨⟨sc, hc⟩, lc, dc⟩
  exact C02_transitive_no_trailing_zero_partial sa sb sc a b c ha hb hc la lb lc da db dc

/-! ## C10 -/

/-- C10: a range text built from alternatives of constraints parses, and contains a version exactly when
some alternative has all its constraints true. -/
theorem C10_range_meaning (alts : List (List (Op × Version))) (hne : alts ≠ [])
    (hv : ∀ cs ∈ alts, ∀ c ∈ cs, Parsed c.2) :
    ∃ r, VersionRange.parse (renderRange alts) = some r ∧
      ∀ w, r.contains w = true ↔ ∃ cs ∈ alts, ∀ c ∈ cs, c.1.holds (w.cmp c.2) :=
  ⟨_, parse_render hne hv, fun w => contains_render hne w⟩

/-- C10: `a..b` means `>=a,<b`, for every pair of non-empty versions. -/
theorem C10_dots (a b : Version) (ha : Parsed a) (hb : Parsed b) (hae : a.asStr ≠ []) (hbe : b.asStr ≠ []) :
    ∃ r, VersionRange.parse (a.asStr ++ c!".." ++ b.asStr) = some r ∧
      ∀ w, r.contains w = true ↔ w.cmp a ≠ .lt ∧ w.cmp b = .lt := by
  have pa := Printed.of_parsed ha
  have pb := Printed.of_parsed hb
  have hw : ∀ c ∈ a.asStr ++ c!".." ++ b.asStr, isWs c = false := by
    intro c hc
    simp only [List.mem_append] at hc
    rcases hc with (hc | hc) | hc
    · exact pa.noWs c hc
    · simp at hc; subst hc; decide
    · exact pb.noWs c hc
  have hlast : a.asStr.getLast? ≠ some '.' := fun he => by have := pa.last _ he; revert this; decide
  obtain ⟨x, xs, hx⟩ : ∃ x xs, a.asStr = x :: xs := by
    cases h : a.asStr with
    | nil => exact absurd h hae
    | cons x xs => exact ⟨x, xs, rfl⟩
  have hxt : isTok x = true := pa.head x (by rw [hx]; rfl)
  have hxo : isOpChar x = false := by
    cases hh : isOpChar x with
    | false => rfl
    | true =>
      exfalso
      simp only [isOpChar, Bool.or_eq_true, beq_iff_eq] at hh
      rcases hh with (((rfl | rfl) | rfl) | rfl) | rfl <;> revert hxt <;> decide
  have hdot : x ≠ '.' := isTok_ne hxt (by decide)
  have hstar : '*' ∉ a.asStr ++ c!".." ++ b.asStr := by
    simp only [List.mem_append, not_or]
    exact ⟨⟨pa.not_mem (by decide) (by decide) (by decide) (by decide), by decide⟩,
      pb.not_mem (by decide) (by decide) (by decide) (by decide)⟩
  have h1 : ((a.asStr ++ c!".." ++ b.asStr).isEmpty || a.asStr ++ c!".." ++ b.asStr == c!"*") = false := by
    rw [Bool.or_eq_false_iff, beq_eq_false_iff_ne]
    exact ⟨by simp, fun he => hstar (by rw [he]; simp)⟩
  have h2 : (a.asStr ++ c!".." ++ b.asStr == c!"empty" || a.asStr ++ c!".." ++ b.asStr == c!"!*") = false := by
    rw [Bool.or_eq_false_iff, beq_eq_false_iff_ne, beq_eq_false_iff_ne]
    refine ⟨fun he => ?_, fun he => hstar (by rw [he]; simp)⟩
    have : '.' ∈ c!"empty" := by rw [← he]; simp
    revert this; decide
  have key : parseRangeStr (a.asStr ++ c!".." ++ b.asStr) =
      parseAlternatives (renderRange [[(.ge, a), (.lt, b)]]) := by
    unfold parseRangeStr
    simp only [h1, h2, Bool.false_eq_true, if_false, splitOnce_dots pa.noDots hlast]
    have e1 : ((a.asStr ++ c!".." ++ b.asStr).head? != some '.' && !a.asStr.isEmpty && !b.asStr.isEmpty &&
        !startsOp a.asStr) = true := by
      rw [hx]; simp [startsOp, hxo, hdot, hbe]
    rw [if_pos e1, trim_of_noWs pa.noWs, trim_of_noWs pb.noWs]
    simp [renderRange, joinWith, Op.text]
  have hv : ∀ cs ∈ [[(Op.ge, a), (Op.lt, b)]], ∀ c ∈ cs, Parsed c.2 := by
    intro cs hcs c hc
    simp at hcs; subst hcs; simp at hc
    rcases hc with rfl | rfl
    · exact ha
    · exact hb
  have hpa := parseAlternatives_render (alts := [[(.ge, a), (.lt, b)]]) (by simp) hv
  refine ⟨.mk (a.asStr ++ c!".." ++ b.asStr) ([[(Op.ge, a), (Op.lt, b)]].map conjBounds) true [], ?_, ?_⟩
  · unfold VersionRange.parse
    rw [trim_of_noWs hw, key]
    show Option.map _ (parseAlternatives (joinWith c!"|" ([[(Op.ge, a), (Op.lt, b)]].map conjText))) = _
    rw [hpa]; rfl
  · intro w
    rw [contains_render (by simp)]
    simp only [List.mem_singleton, exists_eq_left, List.forall_mem_cons, Op.holds]
    simp

/-- the text of a range that starts with a version is not one of the special texts -/
theorem plus_text_plain {a t : Str} (pa : Printed a) (ht : '*' ∉ t) (hp : '+' ∈ t)
    (hd : containsStr (a ++ t) c!".." = false) (hw : ∀ c ∈ t, isWs c = false) :
    VersionRange.parse (a ++ t) = (parseAlternatives (a ++ t)).map fun bs => .mk (a ++ t) bs true [] := by
  have hw' : ∀ c ∈ a ++ t, isWs c = false := by
    intro c hc
    rcases List.mem_append.mp hc with h | h
    · exact pa.noWs c h
    · exact hw c h
  have hstar : '*' ∉ a ++ t := by
    rw [List.mem_append, not_or]
    exact ⟨pa.not_mem (by decide) (by decide) (by decide) (by decide), ht⟩
  have hplus : '+' ∈ a ++ t := List.mem_append.mpr (Or.inr hp)
  have h1 : ((a ++ t).isEmpty || a ++ t == c!"*") = false := by
    rw [Bool.or_eq_false_iff, beq_eq_false_iff_ne]
    refine ⟨?_, fun he => hstar (by rw [he]; simp)⟩
    cases h : a ++ t with
    | nil => rw [h] at hplus; cases hplus
    | cons _ _ => rfl
  have h2 : (a ++ t == c!"empty" || a ++ t == c!"!*") = false := by
    rw [Bool.or_eq_false_iff, beq_eq_false_iff_ne, beq_eq_false_iff_ne]
    refine ⟨fun he => ?_, fun he => hstar (by rw [he]; simp)⟩
    have : '+' ∈ c!"empty" := by rw [← he]; exact hplus
    revert this; decide
  unfold VersionRange.parse parseRangeStr
  rw [trim_of_noWs hw']
  simp only [h1, h2, Bool.false_eq_true, if_false, splitOnce_none hd]

theorem not_startsOp {a t : Str} (pa : Printed a) (ht : startsOp t = false) : startsOp (a ++ t) = false := by
  cases h : a with
  | nil => exact ht
  | cons x xs =>
    have hxt : isTok x = true := pa.head x (by rw [h]; rfl)
    show isOpChar x = false
    cases hh : isOpChar x with
    | false => rfl
    | true =>
      exfalso
      simp only [isOpChar, Bool.or_eq_true, beq_iff_eq] at hh
      rcases hh with (((rfl | rfl) | rfl) | rfl) | rfl <;> revert hxt <;> decide

/-- C10: `a+` means `>=a`, for every version `a` not itself written with a `+`. -/
theorem C10_plus (a : Version) (ha : Parsed a) (hp : '+' ∉ a.asStr) :
    ∃ r, VersionRange.parse (a.asStr ++ c!"+") = some r ∧ ∀ w, r.contains w = true ↔ w.cmp a ≠ .lt := by
  have pa := Printed.of_parsed ha
  have hd : containsStr (a.asStr ++ c!"+") c!".." = false := by
    rw [containsDots_append (by decide), pa.noDots]; rfl
  have hv : ∀ c ∈ [(Op.ge, a)], Parsed c.2 := by intro c hc; simp at hc; subst hc; exact ha
  have hcj := parseConjunction_conj hv
  have key : parseAlternatives (a.asStr ++ c!"+") = some ([[(Op.ge, a)]].map conjBounds) := by
    unfold parseAlternatives
    have hnb : '|' ∉ a.asStr ++ c!"+" := by
      rw [List.mem_append, not_or]
      exact ⟨pa.not_mem (by decide) (by decide) (by decide) (by decide), by decide⟩
    have hns : a.asStr ++ c!"+" ≠ c!"*" := by
      intro he
      have : '+' ∈ c!"*" := by rw [← he]; simp
      revert this; decide
    have htr : trim (a.asStr ++ c!"+") = a.asStr ++ c!"+" := trim_of_noWs (by
      intro c hc
      rcases List.mem_append.mp hc with h | h
      · exact pa.noWs c h
      · simp at h; subst h; decide)
    have hex : expandPlus (a.asStr ++ c!"+") = conjText [(Op.ge, a)] := by
      unfold expandPlus
      rw [not_startsOp pa (by rfl), splitOnce_char hp]
      simp [conjText, partText, Op.text, joinWith]
    have hex2 : expandPlus (conjText [(Op.ge, a)]) = conjText [(Op.ge, a)] := by
      unfold expandPlus
      simp [conjText, partText, Op.text, joinWith, startsOp, isOpChar]
    have : parseConjunction (a.asStr ++ c!"+") = parseConjunction (conjText [(Op.ge, a)]) := by
      unfold parseConjunction
      rw [hex, hex2]
      have e1 : ((a.asStr ++ c!"+").isEmpty || a.asStr ++ c!"+" == c!"*") = false := by
        rw [Bool.or_eq_false_iff, beq_eq_false_iff_ne]; exact ⟨by simp, hns⟩
      have e2 : ((conjText [(Op.ge, a)]).isEmpty || conjText [(Op.ge, a)] == c!"*") = false := by
        simp [conjText, partText, Op.text, joinWith]
      rw [e1, e2]
    rw [splitChar_noSep hnb]
    simp [List.mapM_cons, htr, this, hcj]
  refine ⟨.mk (a.asStr ++ c!"+") ([[(Op.ge, a)]].map conjBounds) true [], ?_, ?_⟩
  · rw [plus_text_plain pa (by decide) (by simp) hd (by intro c hc; simp at hc; subst hc; decide), key]; rfl
  · intro w
    rw [contains_render (by simp)]
    simp only [List.mem_singleton, exists_eq_left, List.forall_mem_cons, Op.holds]
    simp

/-- C10: `a+<b` means `>=a,<b`, for every `a` not itself written with a `+` and every `b`. -/
theorem C10_plus_upper (a b : Version) (ha : Parsed a) (hb : Parsed b) (hp : '+' ∉ a.asStr) :
    ∃ r, VersionRange.parse (a.asStr ++ c!"+<" ++ b.asStr) = some r ∧
      ∀ w, r.contains w = true ↔ w.cmp a ≠ .lt ∧ w.cmp b = .lt := by
  have pa := Printed.of_parsed ha
  have pb := Printed.of_parsed hb
  have hbd : ¬ (b.asStr.head? = some '.') := fun he => by have := pb.head _ he; revert this; decide
  have hd : containsStr (a.asStr ++ (c!"+<" ++ b.asStr)) c!".." = false := by
    rw [containsDots_append (by simp), pa.noDots]
    simp only [List.cons_append, List.nil_append]
    rw [containsDots_of_ne _ _ (by decide), containsDots_of_ne _ _ (by decide), pb.noDots]; rfl
  have hv : ∀ c ∈ [(Op.ge, a), (Op.lt, b)], Parsed c.2 := by
    intro c hc; simp at hc; rcases hc with rfl | rfl
    · exact ha
    · exact hb
  have hcj := parseConjunction_conj hv
  have hbw : ∀ c ∈ c!"+<" ++ b.asStr, isWs c = false := by
    intro c hc
    rcases List.mem_append.mp hc with h | h
    · simp at h; rcases h with rfl | rfl <;> decide
    · exact pb.noWs c h
  have key : parseAlternatives (a.asStr ++ (c!"+<" ++ b.asStr)) = some ([[(Op.ge, a), (Op.lt, b)]].map conjBounds) := by
    unfold parseAlternatives
    have hnb : '|' ∉ a.asStr ++ (c!"+<" ++ b.asStr) := by
      simp only [List.mem_append, not_or]
      exact ⟨pa.not_mem (by decide) (by decide) (by decide) (by decide), by decide,
        pb.not_mem (by decide) (by decide) (by decide) (by decide)⟩
    have htr : trim (a.asStr ++ (c!"+<" ++ b.asStr)) = a.asStr ++ (c!"+<" ++ b.asStr) := trim_of_noWs (by
      intro c hc
      rcases List.mem_append.mp hc with h | h
      · exact pa.noWs c h
      · exact hbw c h)
    have hex : expandPlus (a.asStr ++ (c!"+<" ++ b.asStr)) = conjText [(Op.ge, a), (Op.lt, b)] := by
      unfold expandPlus
      rw [not_startsOp pa (by rfl)]
      have : splitOnce c!"+" (a.asStr ++ (c!"+<" ++ b.asStr)) = some (a.asStr, '<' :: b.asStr) :=
        splitOnce_char hp ('<' :: b.asStr)
      rw [this]
      simp [conjText, partText, Op.text, joinWith]
    have hex2 : expandPlus (conjText [(Op.ge, a), (Op.lt, b)]) = conjText [(Op.ge, a), (Op.lt, b)] := by
      unfold expandPlus
      simp [conjText, partText, Op.text, joinWith, startsOp, isOpChar]
    have : parseConjunction (a.asStr ++ (c!"+<" ++ b.asStr)) = parseConjunction (conjText [(Op.ge, a), (Op.lt, b)]) := by
      unfold parseConjunction
      rw [hex, hex2]
      have e1 : ((a.asStr ++ (c!"+<" ++ b.asStr)).isEmpty || a.asStr ++ (c!"+<" ++ b.asStr) == c!"*") = false := by
        rw [Bool.or_eq_false_iff, beq_eq_false_iff_ne]
        refine ⟨by simp, fun he => ?_⟩
        have : '+' ∈ c!"*" := by rw [← he]; simp
        revert this; decide
      have e2 : ((conjText [(Op.ge, a), (Op.lt, b)]).isEmpty || conjText [(Op.ge, a), (Op.lt, b)] == c!"*") = false := by
        simp [conjText, partText, Op.text, joinWith]
      rw [e1, e2]
    rw [splitChar_noSep hnb]
    simp only [List.mapM_cons, htr, this, hcj]
    rfl
  refine ⟨.mk (a.asStr ++ (c!"+<" ++ b.asStr)) ([[(Op.ge, a), (Op.lt, b)]].map conjBounds) true [], ?_, ?_⟩
  · rw [List.append_assoc, plus_text_plain pa ?_ (by simp) hd hbw, key]; rfl
    simp only [List.mem_append, not_or]
    exact ⟨by decide, pb.not_mem (by decide) (by decide) (by decide) (by decide)⟩
  · intro w
    rw [contains_render (by simp)]
    simp only [List.mem_singleton, exists_eq_left, List.forall_mem_cons, Op.holds]
    simp

/-- C10: the shorthand does not extend to versions written with a `+`: `1+b` is a version, `1+b+` is
rejected, and the bare text `1+5` is not the exact version `1+5` but `>=1,==5`, which excludes it. -/
theorem C10_plus_false :
    (∃ v, Version.parse c!"1+b" = some v) ∧ (VersionRange.parse c!"1+b+").isNone = true ∧
    (∃ r v, VersionRange.parse c!"1+5" = some r ∧ Version.parse c!"1+5" = some v ∧ r.contains v = false) :=
  ⟨⟨_, rfl⟩, by decide, ⟨_, _, rfl, rfl, by decide⟩⟩

-- three alternatives with several constraints each
example : ∃ r a b, VersionRange.parse c!">=1.0,<2.0|==3,!=4|>5" = some r ∧ Version.parse c!"1.5-rc1" = some a ∧
    Version.parse c!"2.5" = some b ∧ r.contains a = true ∧ r.contains b = false :=
  ⟨_, _, _, rfl, rfl, rfl, by decide, by decide⟩
example : ∃ a b, Version.parse c!"1.0" = some a ∧ Version.parse c!"2.0-rc1" = some b ∧ '+' ∉ a.asStr ∧
    renderRange [[(.ge, a), (.lt, b)], [(.ne, b)]] = c!">=1.0,<2.0-rc1|!=2.0-rc1" :=
  ⟨_, _, rfl, rfl, by decide, by decide⟩

/-! ## C11 -/

/-- C11 does not hold after a subtraction: `any` minus `==1.5`, intersected with `>=1.0`, contains 1.5. -/
theorem C11_intersect_false :
    ∃ five ge1 a r v, VersionRange.parse c!"==1.5" = some five ∧ VersionRange.parse c!">=1.0" = some ge1 ∧
      VersionRange.any.subtract five = some a ∧ a.intersect ge1 = some r ∧ Version.parse c!"1.5" = some v ∧
      a.contains v = false ∧ r.contains v = true :=
  ⟨_, _, _, _, _, rfl, rfl, rfl, rfl, rfl, by decide, by decide⟩

/-- C11 does not hold for plain parsed ranges either, because `<=` is not transitive: version 1 is in both
`>=1.1` and `<=1.0`, and the intersection is `None`. -/
theorem C11_intersect_none_false :
    ∃ a b v, VersionRange.parse c!">=1.1" = some a ∧ VersionRange.parse c!"<=1.0" = some b ∧
      Version.parse c!"1" = some v ∧ a.contains v = true ∧ b.contains v = true ∧ (a.intersect b).isNone = true :=
  ⟨_, _, _, rfl, rfl, rfl, by decide, by decide, by decide⟩

/-- C11, partial: nothing is ever added; a version of the intersection is in both ranges, whatever the
history, provided `is_any` is truthful about the operands.  Missing: operands for which `is_any` lies
(refuted above). -/
theorem C11_intersect_contained_partial (a b r : VersionRange) (ha : Built a) (hb : Built b) (oa : AnyHonest a)
    (ob : AnyHonest b) (h : a.intersect b = some r) (v : Version) (hv : r.contains v = true) :
    a.contains v = true ∧ b.contains v = true := by
  have wr := wf_intersect ha.wf hb.wf h
  unfold VersionRange.intersect at h
  split at h
  · rename_i h1; simp at h; subst h; exact ⟨oa h1 v, hv⟩
  split at h
  · rename_i h1; simp at h; subst h; exact ⟨hv, ob h1 v⟩
  simp only at h
  split at h
  · cases h
  · simp only [Option.some.injEq] at h
    subst h
    rw [contains_wf wr] at hv
    obtain ⟨⟨m, hm, hmc⟩, hs⟩ := hv
    obtain ⟨x, hx, y, hy, rfl, _⟩ := mergedSets_mem.mp hm
    rw [contains_append, Bool.and_eq_true] at hmc
    change VersionRange.containsAny (a.subtractFrom ++ b.subtractFrom) v = false at hs
    rw [containsAny_append, Bool.or_eq_false_iff] at hs
    rw [contains_wf ha.wf, contains_wf hb.wf]
    exact ⟨⟨⟨x, hx, hmc.1⟩, hs.1⟩, ⟨⟨y, hy, hmc.2⟩, hs.2⟩⟩

/-- C11, partial: the intersection contains every common version, and is `None` only when there is none,
for versions taken from a family on which `<=` is transitive and which includes the versions written in the
two ranges.  Missing: versions outside any such family, and operands for which `is_any` lies (both refuted
above). -/
theorem C11_intersect_complete_partial (S : Version → Prop) (hS : TransOn S) (a b : VersionRange) (ha : Built a)
    (hb : Built b) (ma : ∀ u, Mentions a u → S u) (mb : ∀ u, Mentions b u → S u) (v : Version) (hv : S v)
    (hav : a.contains v = true) (hbv : b.contains v = true) :
    ∃ r, a.intersect b = some r ∧ r.contains v = true := by
  unfold VersionRange.intersect
  split
  · exact ⟨b, rfl, hbv⟩
  split
  · exact ⟨a, rfl, hav⟩
  rw [contains_wf ha.wf] at hav
  rw [contains_wf hb.wf] at hbv
  obtain ⟨⟨x, hx, hxv⟩, hsa⟩ := hav
  obtain ⟨⟨y, hy, hyv⟩, hsb⟩ := hbv
  have hc : BoundSet.contains (x ++ y) v = true := by rw [contains_append, hxv, hyv]; rfl
  have hsat : isSatisfiable (x ++ y) = true := by
    refine isSatisfiable_of hS hv ?_ hc
    intro c hcm u hu
    rcases List.mem_append.mp hcm with h | h
    · exact ma u ⟨x, hx, c, h, hu⟩
    · exact mb u ⟨y, hy, c, h, hu⟩
  have hmem : x ++ y ∈ VersionRange.mergedSets a.boundSets b.boundSets :=
    mergedSets_mem.mpr ⟨x, hx, y, hy, rfl, hsat⟩
  simp only
  rw [if_neg (by rw [List.isEmpty_iff]; intro he; rw [he] at hmem; cases hmem)]
  refine ⟨_, rfl, ?_⟩
  rw [contains_mk]
  right
  refine ⟨⟨_, hmem, hc⟩, ?_⟩
  rw [containsAny_append, hsa, hsb]; rfl

-- ranges made with subtract meet the hypotheses
example : ∃ x y z a v, VersionRange.parse c!">=1.1,<3.1" = some x ∧ VersionRange.parse c!"==1.5" = some y ∧
    VersionRange.parse c!">=1.2|==9" = some z ∧ x.subtract y = some a ∧ Version.parse c!"1.7" = some v ∧
    a.isAny = false ∧ z.isAny = false ∧ a.contains v = true ∧ z.contains v = true :=
  ⟨_, _, _, _, _, rfl, rfl, rfl, rfl, rfl, by decide, by decide, by decide, by decide⟩

/-- C11, partial: when every pair of alternatives contains a lower bound above an upper bound, the
intersection is `None`; the versions written in the ranges must belong to a family on which `<=` is
transitive.  Missing: emptiness for other reasons. -/
theorem C11_contradictory_none_partial (S : Version → Prop) (hS : TransOn S) (a b : VersionRange)
    (ma : ∀ u, Mentions a u → S u) (mb : ∀ u, Mentions b u → S u) (ha : a.isAny = false) (hb : b.isAny = false)
    (h : ∀ x ∈ a.boundSets, ∀ y ∈ b.boundSets, Contradictory (x ++ y)) : (a.intersect b).isNone = true := by
  unfold VersionRange.intersect
  have hm : VersionRange.mergedSets a.boundSets b.boundSets = [] := by
    rw [List.eq_nil_iff_forall_not_mem]
    intro m hm
    obtain ⟨x, hx, y, hy, rfl, hs⟩ := mergedSets_mem.mp hm
    rw [isSatisfiable_contradictory hS (fun c hc u hu => ?_) (h x hx y hy)] at hs
    · cases hs
    · rcases List.mem_append.mp hc with hc | hc
      · exact ma u ⟨x, hx, c, hc, hu⟩
      · exact mb u ⟨y, hy, c, hc, hu⟩
  simp [ha, hb, hm]

/-- `>=1,>=3` and `<2` contradict each other, and so do `>=1,>=3` and `<=1.5`. -/
example : ∃ a b, VersionRange.parse c!">=3,>=1" = some a ∧ VersionRange.parse c!"<2|<=1.5" = some b ∧
    a.isAny = false ∧ b.isAny = false ∧ (∀ x ∈ a.boundSets, ∀ y ∈ b.boundSets, Contradictory (x ++ y)) ∧
    (a.intersect b).isNone = true := by
  refine ⟨_, _, rfl, rfl, by decide, by decide, ?_, by decide⟩
  intro x hx y hy
  simp [VersionRange.boundSets] at hx hy
  subst hx
  rcases hy with rfl | rfl
  · exact ⟨_, _, .inl (.head _), .inr (List.mem_append_right _ (.head _)), by decide⟩
  · exact ⟨_, _, .inl (.head _), .inl (List.mem_append_right _ (.head _)), by decide⟩

/-! ## C12 -/

/-- C12 does not hold after a subtraction: (`>=1.0` minus `==1.5`) united with `==3.0` contains 1.5. -/
theorem C12_union_false :
    ∃ x y z a v, VersionRange.parse c!">=1.0" = some x ∧ VersionRange.parse c!"==1.5" = some y ∧
      VersionRange.parse c!"==3.0" = some z ∧ x.subtract y = some a ∧ Version.parse c!"1.5" = some v ∧
      a.contains v = false ∧ z.contains v = false ∧ (a.union z).contains v = true :=
  ⟨_, _, _, _, _, rfl, rfl, rfl, rfl, rfl, by decide, by decide, by decide⟩

/-- C12, partial: the union is exact for all ranges built without `subtract`.  Missing: ranges that carry a
subtraction, for which only the next theorem holds. -/
theorem C12_union_partial (a b : VersionRange) (ha : BuiltPlain a) (hb : BuiltPlain b) (v : Version) :
    (a.union b).contains v = true ↔ a.contains v = true ∨ b.contains v = true := by
  rw [contains_wf (wf_union ha.built.wf), contains_wf ha.built.wf, contains_wf hb.built.wf, ha.noSub, hb.noSub]
  simp only [VersionRange.union, VersionRange.boundSets, VersionRange.subtractFrom, VersionRange.containsAny,
    and_true, List.mem_append]
  constructor
  · rintro ⟨x, hx | hx, h⟩
    · exact Or.inl ⟨x, hx, h⟩
    · exact Or.inr ⟨x, hx, h⟩
  · rintro (⟨x, hx, h⟩ | ⟨x, hx, h⟩)
    · exact ⟨x, Or.inl hx, h⟩
    · exact ⟨x, Or.inr hx, h⟩

/-- C12, partial: for every history the union loses no version of either operand. -/
theorem C12_union_superset_partial (a b : VersionRange) (ha : Built a) (hb : Built b) (v : Version)
    (h : a.contains v = true ∨ b.contains v = true) : (a.union b).contains v = true := by
  rw [contains_wf (wf_union ha.wf)]
  rw [contains_wf ha.wf, contains_wf hb.wf] at h
  refine ⟨?_, rfl⟩
  rcases h with ⟨⟨x, hx, h⟩, _⟩ | ⟨⟨x, hx, h⟩, _⟩
  · exact ⟨x, List.mem_append.mpr (Or.inl hx), h⟩
  · exact ⟨x, List.mem_append.mpr (Or.inr hx), h⟩

example : ∃ x y, VersionRange.parse c!">=1.0,<2.0" = some x ∧ VersionRange.parse c!"==3.0" = some y ∧
    BuiltPlain x ∧ BuiltPlain (x.union y) :=
  ⟨_, _, rfl, rfl, .parse (s := c!">=1.0,<2.0") rfl, .union (.parse (s := c!">=1.0,<2.0") rfl) (.parse (s := c!"==3.0") rfl)⟩

/-! ## C13 -/

/-- C13: when `subtract` returns a range, it contains exactly the versions of the first that are not in the
second, for every history of the operands. -/
theorem C13_subtract_some (a b r : VersionRange) (ha : Built a) (hb : Built b) (h : a.subtract b = some r)
    (v : Version) : r.contains v = true ↔ a.contains v = true ∧ b.contains v = false := by
  have wr := wf_subtract ha.wf h
  unfold VersionRange.subtract at h
  split at h
  · cases h
  split at h
  · rename_i he
    simp at h; subst h
    simp [isEmpty_none hb.wf he v]
  split at h
  · cases h
  simp only at h
  split at h
  · simp only [Option.some.injEq] at h
    subst h
    rw [contains_wf wr, contains_wf ha.wf]
    simp only [VersionRange.boundSets, VersionRange.subtractFrom, containsAny_append, VersionRange.containsAny,
      Bool.or_false, Bool.or_eq_false_iff, and_assoc]
  · cases h

/-- C13 does not hold for `None`: `>1.9999999,<1` minus `==5` gives `None` although it contains 1.99999999,
which is not in `==5`. -/
theorem C13_subtract_none_false :
    ∃ a b v, VersionRange.parse c!">1.9999999,<1" = some a ∧ VersionRange.parse c!"==5" = some b ∧
      Version.parse c!"1.99999999" = some v ∧ (a.subtract b).isNone = true ∧ a.contains v = true ∧
      b.contains v = false :=
  ⟨_, _, _, rfl, rfl, rfl, by decide, by decide, by decide⟩

/-- C13 does not hold for `None` either when the second operand was itself made by a subtraction from
`any`: `>=1.0` minus (`any` minus `==1.5`) is `None` although it should contain 1.5. -/
theorem C13_subtract_any_false :
    ∃ a y b v, VersionRange.parse c!">=1.0" = some a ∧ VersionRange.parse c!"==1.5" = some y ∧
      VersionRange.any.subtract y = some b ∧ Version.parse c!"1.5" = some v ∧ (a.subtract b).isNone = true ∧
      a.contains v = true ∧ b.contains v = false :=
  ⟨_, _, _, _, rfl, rfl, rfl, rfl, by decide, by decide, by decide⟩

/-- C13, partial: `None` means that no version written in the bounds of either range is in the difference
(provided `is_any` is truthful about the second operand).  Missing: the other versions, which the code does
not examine. -/
theorem C13_subtract_none_partial (a b : VersionRange) (ha : Built a) (ob : AnyHonest b)
    (h : a.subtract b = none) (v : Version) (hm : Mentions a v ∨ Mentions b v) :
    a.contains v = true → b.contains v = true := by
  intro hav
  unfold VersionRange.subtract at h
  split at h
  · rename_i hb; exact ob hb v
  split at h
  · cases h
  split at h
  · rename_i he; rw [isEmpty_none ha.wf he v] at hav; cases hav
  simp only at h
  split at h
  · cases h
  · rename_i hp
    cases hbv : b.contains v with
    | true => rfl
    | false =>
      exfalso; apply hp
      rw [List.any_eq_true]
      refine ⟨v, probes_mentions hm, ?_⟩
      rw [contains_wf ha.wf] at hav
      rw [contains_mk]; right
      refine ⟨hav.1, ?_⟩
      rw [containsAny_append, hav.2]
      simp [VersionRange.containsAny, hbv]

example : ∃ x y r v w, VersionRange.parse c!">=1.0,<2.0" = some x ∧ VersionRange.parse c!">=1.5" = some y ∧
    x.subtract y = some r ∧ Version.parse c!"1.2" = some v ∧ Version.parse c!"1.7" = some w ∧
    r.contains v = true ∧ r.contains w = false :=
  ⟨_, _, _, _, _, rfl, rfl, rfl, rfl, rfl, by decide, by decide⟩
example : ∃ x y v, VersionRange.parse c!"==1.5" = some x ∧ VersionRange.parse c!">=1.0" = some y ∧
    Version.parse c!"1.5" = some v ∧ (x.subtract y).isNone = true ∧ y.isAny = false ∧ Mentions x v ∧
    x.contains v = true :=
  ⟨_, _, _, rfl, rfl, rfl, by decide, by decide, ⟨_, .head _, _, .head _, by decide⟩, by decide⟩

/-! ## C14 -/

/-- C14 does not hold: `>1.9999999,<1` is said to be a subset of `==5`. -/
theorem C14_subset_true_false :
    ∃ a b v, VersionRange.parse c!">1.9999999,<1" = some a ∧ VersionRange.parse c!"==5" = some b ∧
      Version.parse c!"1.99999999" = some v ∧ a.isSubsetOf b = true ∧ a.contains v = true ∧ b.contains v = false :=
  ⟨_, _, _, rfl, rfl, rfl, by decide, by decide, by decide⟩

/-- C14 does not hold in the other direction: `*` is said not to be a subset of `<1|>=1`, which contains
every version. -/
theorem C14_subset_false_false :
    ∃ a b, VersionRange.parse c!"*" = some a ∧ VersionRange.parse c!"<1|>=1" = some b ∧
      a.isSubsetOf b = false ∧ ∀ v, b.contains v = true := by
  refine ⟨.mk c!"*" [[.any]] true [],
    .mk c!"<1|>=1" [[.lt ⟨[c!"1"], [], c!"1"⟩], [.ge ⟨[c!"1"], [], c!"1"⟩]] true [], rfl, rfl, by decide, fun v => ?_⟩
  rw [contains_mk]; right
  refine ⟨?_, rfl⟩
  cases h : v.cmp ⟨[c!"1"], [], c!"1"⟩ with
  | lt => exact ⟨_, List.mem_cons_self, by simp [BoundSet.contains, boundMatches, Version.lt, h]⟩
  | eq => exact ⟨_, List.mem_cons_of_mem _ List.mem_cons_self, by simp [BoundSet.contains, boundMatches, Version.ge, h]⟩
  | gt => exact ⟨_, List.mem_cons_of_mem _ List.mem_cons_self, by simp [BoundSet.contains, boundMatches, Version.ge, h]⟩

/-- C14, partial: a negative answer is right whenever the first range is not `any`: some version is in the
first and not in the second.  Missing: the case refuted above. -/
theorem C14_subset_no_partial (a b : VersionRange) (hn : a.isAny = false) (h : a.isSubsetOf b = false) :
    ∃ v, a.contains v = true ∧ b.contains v = false := by
  unfold VersionRange.isSubsetOf at h
  split at h
  · cases h
  split at h
  · rename_i h1; rw [hn] at h1; cases h1
  split at h
  · cases h
  · simp only [Bool.not_eq_false', List.any_eq_true, Bool.and_eq_true, Bool.not_eq_true'] at h
    obtain ⟨v, _, h1, h2⟩ := h
    exact ⟨v, h1, h2⟩

/-- C14, partial: a positive answer is right about every version written in the bounds of either range.
Missing: all the other versions. -/
theorem C14_subset_yes_partial (a b : VersionRange) (ha : Built a) (ob : AnyHonest b)
    (h : a.isSubsetOf b = true) (v : Version) (hm : Mentions a v ∨ Mentions b v) :
    a.contains v = true → b.contains v = true := by
  intro hav
  unfold VersionRange.isSubsetOf at h
  split at h
  · rename_i hb; exact ob hb v
  rename_i hb
  split at h
  · exact absurd h hb
  split at h
  · rename_i he; rw [isEmpty_none ha.wf he v] at hav; cases hav
  · simp only [Bool.not_eq_true', ← Bool.not_eq_true, List.any_eq_true, Bool.and_eq_true] at h
    cases hbv : b.contains v with
    | true => rfl
    | false => exact absurd ⟨v, probes_mentions hm, hav, by rw [hbv]; decide⟩ h

example : ∃ a b, VersionRange.parse c!">=1.1" = some a ∧ VersionRange.parse c!"<3|>=5" = some b ∧ a.isAny = false ∧
    a.isSubsetOf b = false := ⟨_, _, rfl, rfl, by decide, by decide⟩
example : ∃ a b, VersionRange.parse c!">=1.1,<2.5" = some a ∧ VersionRange.parse c!">=1.0,<3" = some b ∧
    b.isAny = false ∧ a.isSubsetOf b = true := ⟨_, _, rfl, rfl, by decide, by decide⟩

/-! ## C15 -/

/-- C15 does not hold: `intersects` is not symmetric. -/
theorem C15_symmetric_false :
    ∃ a b, VersionRange.parse c!">1" = some a ∧ VersionRange.parse c!">=1,<=1" = some b ∧
      a.intersects b = true ∧ b.intersects a = false := ⟨_, _, rfl, rfl, by decide, by decide⟩

/-- C15 does not hold: version 1 is in both `>=1.1` and `<=1.0` but `intersects` says no. -/
theorem C15_no_miss_false :
    ∃ a b v, VersionRange.parse c!">=1.1" = some a ∧ VersionRange.parse c!"<=1.0" = some b ∧
      Version.parse c!"1" = some v ∧ a.contains v = true ∧ b.contains v = true ∧ a.intersects b = false :=
  ⟨_, _, _, rfl, rfl, rfl, by decide, by decide, by decide⟩

/-- C15, partial: for versions of a family on which `<=` is transitive (including the versions written in
the ranges), a common version is never missed, whatever the history of the ranges. -/
theorem C15_no_miss_partial (S : Version → Prop) (hS : TransOn S) (a b : VersionRange) (ha : Built a)
    (hb : Built b) (ma : ∀ u, Mentions a u → S u) (mb : ∀ u, Mentions b u → S u) (v : Version) (hv : S v)
    (hav : a.contains v = true) (hbv : b.contains v = true) : a.intersects b = true := by
  unfold VersionRange.intersects
  split
  · rfl
  rw [contains_wf ha.wf] at hav
  rw [contains_wf hb.wf] at hbv
  obtain ⟨⟨x, hx, hxv⟩, _⟩ := hav
  obtain ⟨⟨y, hy, hyv⟩, _⟩ := hbv
  rw [List.any_eq_true]
  refine ⟨x, hx, ?_⟩
  rw [List.any_eq_true]
  refine ⟨y, hy, boundSetsIntersect_of hS hv ?_ ?_ hxv hyv⟩
  · intro c hc u hu; exact ma u ⟨x, hx, c, hc, hu⟩
  · intro c hc u hu; exact mb u ⟨y, hy, c, hc, hu⟩

/-- two single bounds intersect in one order exactly when they do in the other -/
theorem single_intersect_symm (x y : Bound) : boundSetsIntersect [x] [y] = boundSetsIntersect [y] [x] := by
  have fl : ∀ p q : Version, q.cmp p = (p.cmp q).swap := C01_compare_swap
  cases x <;> cases y <;>
    simp [boundSetsIntersect, eqVersions, eqDisagree, eqClash, limitLoop, stepGe, stepGt, stepLe, stepLt, limitsOk,
      Version.eqv, Version.lt, Version.le, Version.gt, Version.ge, C01_compare_refl]
  all_goals
    rename_i p q
    have h1 := fl p q
    cases hpq : p.cmp q <;> rw [hpq] at h1 <;> simp [h1, hpq]

/-- C15, partial: `intersects` is symmetric on ranges all of whose alternatives are single constraints.
Missing: alternatives with several constraints (refuted above). -/
theorem C15_symmetric_single_partial (a b : VersionRange) (ha : ∀ bs ∈ a.boundSets, bs.length = 1)
    (hb : ∀ bs ∈ b.boundSets, bs.length = 1) : a.intersects b = b.intersects a := by
  have key : ∀ x ∈ a.boundSets, ∀ y ∈ b.boundSets, boundSetsIntersect x y = boundSetsIntersect y x := by
    intro x hx y hy
    obtain ⟨p, rfl⟩ := List.length_eq_one_iff.mp (ha x hx)
    obtain ⟨q, rfl⟩ := List.length_eq_one_iff.mp (hb y hy)
    exact single_intersect_symm p q
  unfold VersionRange.intersects
  rw [Bool.or_comm]
  split
  · rfl
  · rw [Bool.eq_iff_iff]
    simp only [List.any_eq_true]
    constructor
    · rintro ⟨x, hx, y, hy, h⟩; exact ⟨y, hy, x, hx, by rw [← key x hx y hy]; exact h⟩
    · rintro ⟨y, hy, x, hx, h⟩; exact ⟨x, hx, y, hy, by rw [key x hx y hy]; exact h⟩

example : ∃ a b v, VersionRange.parse c!">=1.1,<2.5|==7" = some a ∧ VersionRange.parse c!"<=2.1,!=2" = some b ∧
    Version.parse c!"1.7" = some v ∧ a.contains v = true ∧ b.contains v = true ∧ a.isAny = false :=
  ⟨_, _, _, rfl, rfl, rfl, by decide, by decide, by decide⟩
example : ∃ a b, VersionRange.parse c!">=1.1|==7" = some a ∧ VersionRange.parse c!"<1|!=2" = some b ∧
    (∀ bs ∈ a.boundSets, bs.length = 1) ∧ a.intersects b = true := ⟨_, _, rfl, rfl, by decide, by decide⟩

/-- C15, partial: ranges all of whose pairs of alternatives contain a lower bound above an upper bound are
reported as disjoint.  Missing: disjointness for other reasons. -/
theorem C15_contradictory_partial (S : Version → Prop) (hS : TransOn S) (a b : VersionRange)
    (ma : ∀ u, Mentions a u → S u) (mb : ∀ u, Mentions b u → S u) (ha : a.isAny = false) (hb : b.isAny = false)
    (na : ∀ x ∈ a.boundSets, ∃ c ∈ x, c ≠ Bound.any) (nb : ∀ y ∈ b.boundSets, ∃ c ∈ y, c ≠ Bound.any)
    (h : ∀ x ∈ a.boundSets, ∀ y ∈ b.boundSets, Contradictory (x ++ y)) : a.intersects b = false := by
  unfold VersionRange.intersects
  simp only [ha, hb, Bool.or_self, Bool.false_eq_true, if_false]
  rw [List.any_eq_false]
  intro x hx
  rw [List.any_eq_true]
  rintro ⟨y, hy, hi⟩
  rw [boundSetsIntersect_contradictory hS (fun c hc u hu => ?_) (na x hx) (nb y hy) (h x hx y hy)] at hi
  · cases hi
  · rcases List.mem_append.mp hc with hc | hc
    · exact ma u ⟨x, hx, c, hc, hu⟩
    · exact mb u ⟨y, hy, c, hc, hu⟩

example : ∃ a b, VersionRange.parse c!">=3,>=1" = some a ∧ VersionRange.parse c!"<2|<=1.5" = some b ∧
    a.intersects b = false ∧ a.isAny = false ∧ b.isAny = false := ⟨_, _, rfl, rfl, by decide, by decide, by decide⟩

/-! ## C16 -/

/-- C16 does not hold: after a JSON round trip `==1.0` contains 2.0. -/
theorem C16_serialise_false :
    ∃ r v, VersionRange.parse c!"==1.0" = some r ∧ Version.parse c!"2.0" = some v ∧ r.contains v = false ∧
      r.serdeRoundTrip.contains v = true := ⟨_, _, rfl, rfl, by decide, by decide⟩

/-- C16, partial: the round trip never loses a version, and keeps the text, from which the original can be
rebuilt by parsing when the original came from parsing.  Missing: exactness, refuted above. -/
theorem C16_serialise_partial (r : VersionRange) (v : Version) (s : Str) (h : VersionRange.parse s = some r) :
    (r.contains v = true → r.serdeRoundTrip.contains v = true) ∧
    VersionRange.parse r.serdeRoundTrip.rangeStr = some r := by
  refine ⟨fun _ => by simp [VersionRange.serdeRoundTrip, VersionRange.contains], ?_⟩
  show VersionRange.parse r.rangeStr = some r
  rw [(wf_parse h).2.2, h]

example : ∃ r, VersionRange.parse c!" >=1.0,<2.0 " = some r := ⟨_, rfl⟩

/-! ## C17 -/

/-- C17: a range that says it is empty contains no version, for every history. -/
theorem C17_is_empty (r : VersionRange) (h : Built r) (he : r.isEmpty = true) (v : Version) :
    r.contains v = false := isEmpty_none h.wf he v

/-- C17 does not hold for `is_any`: `any` minus `==1.5` says it is any and does not contain 1.5. -/
theorem C17_is_any_false :
    ∃ y r v, VersionRange.parse c!"==1.5" = some y ∧ VersionRange.any.subtract y = some r ∧
      Version.parse c!"1.5" = some v ∧ r.isAny = true ∧ r.contains v = false :=
  ⟨_, _, _, rfl, rfl, rfl, by decide, by decide⟩

/-- C17, partial: `is_any` is truthful for every range built without `subtract`.  Missing: ranges that
carry a subtraction (refuted above). -/
theorem C17_is_any_partial (r : VersionRange) (h : BuiltPlain r) (ha : r.isAny = true) (v : Version) :
    r.contains v = true := isAny_true h.built.wf h.noSub ha v

example : ∃ x y, VersionRange.parse c!"empty" = some x ∧ VersionRange.parse c!" !* " = some y ∧
    Built (x.union y) ∧ (x.union y).isEmpty = true :=
  ⟨_, _, rfl, rfl, .union (.parse (s := c!"empty") rfl) (.parse (s := c!" !* ") rfl), by decide⟩
example : ∃ x y, VersionRange.parse c!"*" = some x ∧ VersionRange.parse c!"|*" = some y ∧
    BuiltPlain (x.union y) ∧ (x.union y).isAny = true :=
  ⟨_, _, rfl, rfl, .union (.parse (s := c!"*") rfl) (.parse (s := c!"|*") rfl), by decide⟩

/-! ## C18 -/

theorem stripDotted {ns : List Nat} (h : ns ≠ []) : splitChar '.' (dotted ns) = ns.map decimal := by
  unfold dotted
  apply splitChar_join (by simpa using h)
  intro p hp
  obtain ⟨n, _, rfl⟩ := List.mem_map.mp hp
  intro hm
  have := List.all_eq_true.mp (decimal_digits n) _ hm
  revert this; decide

theorem parse_compatible {ns : List Nat} (h1 : ns ≠ []) (h5 : ns.length ≤ 5) :
    ∃ lo, Version.parse (dotted ns) = some lo ∧ lo.asStr = dotted ns ∧
      VersionRange.parse (c!"~=" ++ dotted ns) = some (.mk (c!"~=" ++ dotted ns) [[.compatible lo]] true []) := by
  have hp := parse_dotted h1 h5
  refine ⟨_, hp, rfl, ?_⟩
  have pv : Printed (dotted ns) := Printed.of_parsed (v := ⟨_, _, dotted ns⟩) ⟨_, hp⟩
  have hw : ∀ c ∈ c!"~=" ++ dotted ns, isWs c = false := by
    intro c hc
    rcases List.mem_append.mp hc with h | h
    · simp at h; rcases h with rfl | rfl <;> decide
    · exact pv.noWs c h
  have hd : containsStr (c!"~=" ++ dotted ns) c!".." = false := by
    simp only [List.cons_append, List.nil_append]
    rw [containsDots_of_ne _ _ (by decide), containsDots_of_ne _ _ (by decide), pv.noDots]
  have hbar : '|' ∉ c!"~=" ++ dotted ns := by
    rw [List.mem_append, not_or]
    exact ⟨by decide, pv.not_mem (by decide) (by decide) (by decide) (by decide)⟩
  have hcomma : ',' ∉ c!"~=" ++ dotted ns := by
    rw [List.mem_append, not_or]
    exact ⟨by decide, pv.not_mem (by decide) (by decide) (by decide) (by decide)⟩
  have hsp : ' ' ∉ c!"~=" ++ dotted ns := fun hm => by have := hw _ hm; revert this; decide
  have htr := trim_of_noWs hw
  have hps : parseSingle (c!"~=" ++ dotted ns) = some (.compatible ⟨ns.map decimal,
      List.replicate (ns.length - 1) c!".", dotted ns⟩) := by
    unfold parseSingle
    simp only [htr]
    simp [parse_trim, hp]
  have hcj : parseConjunction (c!"~=" ++ dotted ns) = some [.compatible ⟨ns.map decimal,
      List.replicate (ns.length - 1) c!".", dotted ns⟩] := by
    have hex : expandPlus (c!"~=" ++ dotted ns) = c!"~=" ++ dotted ns := by
      simp [expandPlus, startsOp, isOpChar]
    have hparts : splitConstraintParts (c!"~=" ++ dotted ns) = [c!"~=" ++ dotted ns] := by
      unfold splitConstraintParts
      rw [splitChar_noSep hcomma]
      simp only [List.map_cons, List.map_nil, htr]
      rw [filter_eq_self_of (by simp)]
      simp only [List.flatMap_cons, List.flatMap_nil, List.append_nil]
      rw [splitOps_noSpace hsp]
      simp only [List.nil_append, htr]
      simp
    unfold parseConjunction
    rw [hex, hparts]
    simp only [List.map_cons, List.map_nil, htr]
    rw [filter_eq_self_of (by simp)]
    simp only [List.mapM_cons, List.mapM_nil, hps]
    rfl
  unfold VersionRange.parse
  rw [htr]
  unfold parseRangeStr parseAlternatives
  rw [splitOnce_none hd, splitChar_noSep hbar]
  simp only [List.mapM_cons, List.mapM_nil, htr, hcj]
  simp

theorem contains_compatible {s : Str} {lo hi : Version} {u : Str} (w : Version)
    (hu : compatUpper (splitChar '.' lo.asStr) = some u) (hl : 2 ≤ (splitChar '.' lo.asStr).length)
    (hh : Version.parse u = some hi) :
    (VersionRange.mk s [[.compatible lo]] true []).contains w = true ↔ w.cmp lo ≠ .lt ∧ w.cmp hi = .lt := by
  rw [contains_mk]
  simp only [reduceCtorEq, List.mem_singleton, exists_eq_left, VersionRange.containsAny, and_true, false_or,
    BoundSet.contains, List.all_cons, List.all_nil, Bool.and_true, boundMatches, hu, hh]
  rw [if_neg (by omega : ¬ (splitChar '.' lo.asStr).length < 2)]
  unfold Version.lt
  cases w.cmp lo <;> simp

theorem parseU64_decimal {x : Nat} (h : x < 2 ^ 64) : parseU64 (decimal x) = some x := by
  rw [parseU64_digits (decimal_ne x) (decimal_digits x) (by rw [decimal_val]; exact h), decimal_val]

/-- C18, partial: `~=X.Y` contains a version exactly when `X.Y <= v < (X+1).0`, for X below 2^64 - 1.
Missing: larger X (refuted below). -/
theorem C18_compatible_two_partial (x y : Nat) (hx : x < 2 ^ 64 - 1) :
    ∃ r lo hi, VersionRange.parse (c!"~=" ++ dotted [x, y]) = some r ∧ Version.parse (dotted [x, y]) = some lo ∧
      Version.parse (dotted [x + 1, 0]) = some hi ∧
      ∀ w, r.contains w = true ↔ w.cmp lo ≠ .lt ∧ w.cmp hi = .lt := by
  obtain ⟨lo, h1, h2, h3⟩ := parse_compatible (ns := [x, y]) (by simp) (by simp)
  obtain ⟨hi, h4⟩ : ∃ hi, Version.parse (dotted [x + 1, 0]) = some hi := ⟨_, parse_dotted (by simp) (by simp)⟩
  refine ⟨_, lo, hi, h3, h1, h4, fun w => ?_⟩
  have hs := stripDotted (ns := [x, y]) (by simp)
  refine contains_compatible w (u := dotted [x + 1, 0]) ?_ ?_ h4
  · rw [h2, hs]
    simp only [List.map_cons, List.map_nil, compatUpper]
    rw [parseU64_decimal (by omega), Option.map_some, Nat.mod_eq_of_lt (by omega)]
    simp [dotted, joinWith]
    rfl
  · rw [h2, hs]; simp

/-- C18, partial: `~=X.Y.Z` (and longer, up to five components) contains a version exactly when
`X.Y.Z <= v < X.(Y+1).0`, for Y below 2^64 - 1 and any X.  Missing: larger Y. -/
theorem C18_compatible_more_partial (x y z : Nat) (rest : List Nat) (hl : rest.length ≤ 2) (hy : y < 2 ^ 64 - 1) :
    ∃ r lo hi, VersionRange.parse (c!"~=" ++ dotted (x :: y :: z :: rest)) = some r ∧
      Version.parse (dotted (x :: y :: z :: rest)) = some lo ∧ Version.parse (dotted [x, y + 1, 0]) = some hi ∧
      ∀ w, r.contains w = true ↔ w.cmp lo ≠ .lt ∧ w.cmp hi = .lt := by
  obtain ⟨lo, h1, h2, h3⟩ := parse_compatible (ns := x :: y :: z :: rest) (by simp) (by simp; omega)
  obtain ⟨hi, h4⟩ : ∃ hi, Version.parse (dotted [x, y + 1, 0]) = some hi := ⟨_, parse_dotted (by simp) (by simp)⟩
  refine ⟨_, lo, hi, h3, h1, h4, fun w => ?_⟩
  have hs := stripDotted (ns := x :: y :: z :: rest) (by simp)
  refine contains_compatible w (u := dotted [x, y + 1, 0]) ?_ ?_ h4
  · rw [h2, hs]
    simp only [List.map_cons, compatUpper]
    rw [parseU64_decimal (by omega), Option.map_some, Nat.mod_eq_of_lt (by omega)]
    simp [dotted, joinWith]
    rfl
  · rw [h2, hs]; simp

/-- C18 does not hold at the top of the 64-bit range (release build): `~=18446744073709551615.3` does not
contain 18446744073709551615.3 itself, because the increment wraps to 0. -/
theorem C18_compatible_false :
    ∃ r v, VersionRange.parse (c!"~=" ++ dotted [2 ^ 64 - 1, 3]) = some r ∧
      Version.parse (dotted [2 ^ 64 - 1, 3]) = some v ∧ r.contains v = false :=
  ⟨_, _, rfl, rfl, by decide⟩

example : ∃ r v w, VersionRange.parse c!"~=1.4.2" = some r ∧ Version.parse c!"1.4.7" = some v ∧
    Version.parse c!"1.5.1" = some w ∧ r.contains v = true ∧ r.contains w = false :=
  ⟨_, _, _, rfl, rfl, rfl, by decide, by decide⟩

end Rez.Props
