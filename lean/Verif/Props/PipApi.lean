import Verif.Spec.PipApi
import Verif.Props.DependsApi
import Verif.Props.Pip
import Verif.Props.Range
import Mathlib.Tactic.IntervalCases
/-!
# C225: pip packages, from Python
-/
namespace Rez.Props
open Rez Rez.PackageOrder Rez.Repository Rez.PackageQuery Rez.PipApi Rez.PipApi.Spec Rez.Spec Rez.Spec.PackageQuery Rez.Spec.Repository

namespace PipApiLemmas

theorem normalize_eq (s : Str) : normalize s = plain s := by
  unfold normalize plain
  rw [List.map_map]
  apply List.map_congr_left
  intro c _
  show (if lowerChar c = '_' then '-' else lowerChar c) = _
  by_cases h : c = '_'
  · subst h; decide
  · rw [if_neg h, if_neg]
    intro e
    by_cases h2 : lowerChar c = c
    · rw [h2] at e; exact h e
    · obtain ⟨n, a, b, e'⟩ := PipLemmas.lower_other h2
      rw [e'] at e
      have := congrArg Char.toNat e
      rw [PipLemmas.ofNat_val b] at this
      revert this
      have : ('_' : Char).toNat = 95 := by decide
      omega

/-- `a+` with any comparison after it. -/
theorem plus_then (a b : Version) (o : Op) (ha : Parsed a) (hb : Parsed b) (hp : '+' ∉ a.asStr) :
    ∃ r, VersionRange.parse (a.asStr ++ (c!"+" ++ (o.text ++ b.asStr))) = some r ∧
      ∀ w, r.contains w = true ↔ w.cmp a ≠ .lt ∧ o.holds (w.cmp b) := by
  have pa := Printed.of_parsed ha
  have pb := Printed.of_parsed hb
  have hv : ∀ c ∈ [(Op.ge, a), (o, b)], Parsed c.2 := by
    intro c hc; simp at hc; rcases hc with rfl | rfl
    · exact ha
    · exact hb
  have hob : ∀ d, isOpChar d = false → isTok d = false → d ≠ '.' → d ≠ '-' → d ≠ '+' → d ∉ o.text ++ b.asStr := by
    intro d h1 h2 h3 h4 h5 hm
    rcases List.mem_append.1 hm with h | h
    · rw [(op_text_chars o d h).1] at h1; cases h1
    · exact pb.not_mem h2 h3 h4 h5 h
  have hd : containsStr (a.asStr ++ (c!"+" ++ (o.text ++ b.asStr))) c!".." = false := by
    rw [containsDots_append (by simp), pa.noDots]
    simp only [List.cons_append, List.nil_append]
    rw [containsDots_of_ne _ _ (by decide)]
    have := part_noDots (c := (o, b)) hb
    rw [show o.text ++ b.asStr = partText (o, b) from rfl, this]; rfl
  have hcj := parseConjunction_conj hv
  have hbw : ∀ c ∈ c!"+" ++ (o.text ++ b.asStr), isWs c = false := by
    intro c hc
    rcases List.mem_append.mp hc with h | h
    · simp at h; rcases h with rfl; decide
    · exact part_noWs (c := (o, b)) hb c h
  have key : parseAlternatives (a.asStr ++ (c!"+" ++ (o.text ++ b.asStr))) = some ([[(Op.ge, a), (o, b)]].map conjBounds) := by
    unfold parseAlternatives
    have hnb : '|' ∉ a.asStr ++ (c!"+" ++ (o.text ++ b.asStr)) := by
      rw [List.mem_append, List.mem_append, not_or, not_or]
      exact ⟨pa.not_mem (by decide) (by decide) (by decide) (by decide), by decide,
        hob '|' (by decide) (by decide) (by decide) (by decide) (by decide)⟩
    have htr : trim (a.asStr ++ (c!"+" ++ (o.text ++ b.asStr))) = a.asStr ++ (c!"+" ++ (o.text ++ b.asStr)) := trim_of_noWs (by
      intro c hc
      rcases List.mem_append.mp hc with h | h
      · exact pa.noWs c h
      · exact hbw c h)
    have hne : (o.text ++ b.asStr).isEmpty = false := by cases o <;> rfl
    have hex : expandPlus (a.asStr ++ (c!"+" ++ (o.text ++ b.asStr))) = conjText [(Op.ge, a), (o, b)] := by
      unfold expandPlus
      rw [not_startsOp pa (by rfl)]
      have : splitOnce c!"+" (a.asStr ++ (c!"+" ++ (o.text ++ b.asStr))) = some (a.asStr, o.text ++ b.asStr) :=
        splitOnce_char hp (o.text ++ b.asStr)
      rw [this]
      simp only [hne]
      simp [conjText, partText, Op.text, joinWith]
    have hex2 : expandPlus (conjText [(Op.ge, a), (o, b)]) = conjText [(Op.ge, a), (o, b)] := by
      unfold expandPlus
      simp [conjText, partText, Op.text, joinWith, startsOp, isOpChar]
    have : parseConjunction (a.asStr ++ (c!"+" ++ (o.text ++ b.asStr))) = parseConjunction (conjText [(Op.ge, a), (o, b)]) := by
      unfold parseConjunction
      rw [hex, hex2]
      have e1 : ((a.asStr ++ (c!"+" ++ (o.text ++ b.asStr))).isEmpty || a.asStr ++ (c!"+" ++ (o.text ++ b.asStr)) == c!"*") = false := by
        rw [Bool.or_eq_false_iff, beq_eq_false_iff_ne]
        refine ⟨by simp, fun he => ?_⟩
        have : '+' ∈ c!"*" := by rw [← he]; simp
        revert this; decide
      have e2 : ((conjText [(Op.ge, a), (o, b)]).isEmpty || conjText [(Op.ge, a), (o, b)] == c!"*") = false := by
        simp [conjText, partText, Op.text, joinWith]
      rw [e1, e2]
    rw [splitChar_noSep hnb]
    simp only [List.mapM_cons, htr, this, hcj]
    rfl
  refine ⟨.mk (a.asStr ++ (c!"+" ++ (o.text ++ b.asStr))) ([[(Op.ge, a), (o, b)]].map conjBounds) true [], ?_, ?_⟩
  · rw [plus_text_plain pa ?_ (by simp) hd hbw, key]; rfl
    rw [List.mem_append, not_or]
    exact ⟨by decide, hob '*' (by decide) (by decide) (by decide) (by decide) (by decide)⟩
  · intro w
    rw [contains_render (by simp)]
    simp only [List.mem_singleton, exists_eq_left, List.forall_mem_cons]
    simp [Op.holds]

/-- A version alone is that version. -/
theorem bare_range (v : Version) (h : Usual v) :
    ∃ r, VersionRange.parse v.asStr = some r ∧ ∀ w, r.contains w = true ↔ w.cmp v = .eq := by
  obtain ⟨⟨hv, hne⟩, hp, he⟩ := h
  have pv := Printed.of_parsed hv
  obtain ⟨x, xs, hx⟩ := List.exists_cons_of_ne_nil hne
  have hxt : isTok x = true := pv.head x (by rw [hx]; rfl)
  have hso : startsOp v.asStr = false := by
    have := not_startsOp (t := []) pv rfl
    rwa [List.append_nil] at this
  have hstar : '*' ∉ v.asStr := pv.not_mem (by decide) (by decide) (by decide) (by decide)
  have hns : (v.asStr == c!"*") = false := by
    rw [beq_eq_false_iff_ne]; intro e; exact hstar (by rw [e]; simp)
  have hnn : (v.asStr == c!"!*") = false := by
    rw [beq_eq_false_iff_ne]; intro e; exact hstar (by rw [e]; simp)
  have hnil : v.asStr.isEmpty = false := by rw [hx]; rfl
  have htr : trim v.asStr = v.asStr := trim_of_noWs pv.noWs
  have hcomma : ',' ∉ v.asStr := pv.not_mem (by decide) (by decide) (by decide) (by decide)
  have hspace : ' ' ∉ v.asStr := pv.not_mem (by decide) (by decide) (by decide) (by decide)
  have hbar : '|' ∉ v.asStr := pv.not_mem (by decide) (by decide) (by decide) (by decide)
  have hsingle : parseSingle v.asStr = some (.eq v) := by
    unfold parseSingle
    rw [htr]
    simp only [hnil, hns, Bool.or_self, Bool.false_eq_true, if_false]
    have hc : ∀ d, isTok d = false → x ≠ d := fun d hd => isTok_ne hxt hd
    have hp' := RealVersion.parse hv
    rw [hx] at hp' ⊢
    split <;> rename_i h <;> first
      | (simp at h; exact absurd h.1 (hc _ (by decide)))
      | (rw [hp']; rfl)
  have hconj : parseConjunction v.asStr = some [.eq v] := by
    unfold parseConjunction
    have hex : expandPlus v.asStr = v.asStr := by
      unfold expandPlus
      have : v.asStr.contains '+' = false := by simpa using hp
      rw [this]; rfl
    rw [hex]
    have hparts : splitConstraintParts v.asStr = [v.asStr] := by
      unfold splitConstraintParts
      rw [splitChar_noSep hcomma]
      simp only [List.map_cons, List.map_nil, htr, List.filter_cons, hnil, Bool.not_false, if_true, List.filter_nil, List.flatMap_cons,
        List.flatMap_nil, List.append_nil]
      rw [splitOps_noSpace hspace]
      simp [htr, hne]
    rw [hparts]
    simp [hnil, hns, htr, hsingle]
  have hdd : splitOnce c!".." v.asStr = none := splitOnce_none pv.noDots
  refine ⟨.mk v.asStr [[.eq v]] true [], ?_, ?_⟩
  · unfold VersionRange.parse parseRangeStr
    have hee : (v.asStr == c!"empty") = false := by rw [beq_eq_false_iff_ne]; exact he
    rw [htr, hnil, hns, hnn, hdd, hee]
    simp only [Bool.or_self, Bool.false_eq_true, if_false]
    unfold parseAlternatives
    rw [splitChar_noSep hbar]
    simp only [List.mapM_cons, htr, hconj]
    rfl
  · intro w
    have h1 : ([[Bound.eq v]] : List BoundSet) = [[(Op.eq, v)]].map conjBounds := rfl
    rw [h1, contains_render (by simp)]
    simp [Op.holds]

theorem trim_part {o : Op} {v : Version} (hv : Parsed v) {a b : Str} (ha : Blanks a) (hb : Blanks b) :
    trim (a ++ (o.text ++ v.asStr) ++ b) = o.text ++ v.asStr := by
  have hn := part_noWs (c := (o, v)) hv
  have hne := part_ne_nil (o, v)
  unfold partText at hn hne
  refine RexLemmas.trim_padded ha hb hne ?_ ?_
  · intro c hc; exact hn c (List.mem_of_mem_head? hc)
  · intro c hc; exact hn c (List.mem_of_getLast? hc)

theorem parts_of {cs : List (Op × Version)} {t : Str} (hne : cs ≠ []) (h : Written cs t) (hv : ∀ c ∈ cs, Parsed c.2) :
    (splitChar ',' t).map trim = cs.map fun c => c.1.text ++ c.2.asStr := by
  obtain ⟨parts, rfl, hf⟩ := h
  have hpne : parts ≠ [] := by
    rintro rfl; cases hf; exact hne rfl
  have hno : ∀ p ∈ parts, ',' ∉ p := by
    intro p hp hm
    obtain ⟨c, hc, a, b, ha, hb, rfl⟩ : ∃ c ∈ cs, ∃ a b, Blanks a ∧ Blanks b ∧ p = a ++ (c.1.text ++ c.2.asStr) ++ b := by
      clear hpne hne
      induction hf with
      | nil => cases hp
      | cons h _ ih =>
        rcases List.mem_cons.1 hp with rfl | hp
        · exact ⟨_, List.mem_cons_self, h⟩
        · obtain ⟨c, hc, h⟩ := ih (fun c hc => hv c (List.mem_cons_of_mem _ hc)) hp
          exact ⟨c, List.mem_cons_of_mem _ hc, h⟩
    rcases List.mem_append.1 hm with hm | hm
    · rcases List.mem_append.1 hm with hm | hm
      · have := ha _ hm; revert this; decide
      · exact part_not_mem (c := c) (hv c hc) (by decide) (by decide) (by decide) (by decide) (by decide) hm
    · have := hb _ hm; revert this; decide
  rw [splitChar_join hpne hno]
  clear hno hpne hne
  induction hf with
  | nil => rfl
  | cons h _ ih =>
    obtain ⟨a, b, ha, hb, rfl⟩ := h
    rw [List.map_cons, List.map_cons, ih fun c hc => hv c (List.mem_cons_of_mem _ hc), trim_part (hv _ List.mem_cons_self) ha hb]

theorem begins_gt (o : Op) (v : Str) : begins '>' (o.text ++ v) = (o == .ge || o == .gt) := by
  cases o <;> rfl

theorem begins_lt (o : Op) (v : Str) : begins '<' (o.text ++ v) = (o == .le || o == .lt) := by
  cases o <;> rfl

theorem low_text {v : Version} (hv : Parsed v) : (dropPairs (Op.ge.text ++ v.asStr)).dropWhile (· == '>') = v.asStr := by
  have pv := Printed.of_parsed hv
  show (dropPairs v.asStr).dropWhile (· == '>') = v.asStr
  cases h : v.asStr with
  | nil => rfl
  | cons x xs =>
    have hx : isTok x = true := pv.head x (by rw [h]; rfl)
    have h1 : x ≠ '>' := isTok_ne hx (by decide)
    have h2 : dropPairs (x :: xs) = x :: xs := by
      unfold dropPairs
      split
      · rename_i h; simp at h; exact absurd h.1 h1
      · rfl
    rw [h2]
    simp [h1]

end PipApiLemmas
open PipApiLemmas

/-- C225: a specifier means, as a range, what its comparisons say: a version is in the range that is read from the converted text
exactly if it meets them all.  `>` must be one of three or more comparisons. -/
theorem C225_specifier (cs : List (Op × Version)) (t : Str) (hne : cs ≠ []) (hw : Written cs t) (hv : ∀ c ∈ cs, Usual c.2)
    (hgt : ∀ c ∈ cs, c.1 = .gt → 3 ≤ cs.length) :
    ∃ r, VersionRange.parse (versionToRez t) = some r ∧ ∀ w, r.contains w = true ↔ ∀ c ∈ cs, c.1.holds (w.cmp c.2) := by
  have hp : ∀ c ∈ cs, Parsed c.2 := fun c hc => (hv c hc).1.1
  have hparts := parts_of hne hw hp
  have asis : ∃ r, VersionRange.parse (joinWith c!"," (cs.map fun c => c.1.text ++ c.2.asStr)) = some r ∧
      ∀ w, r.contains w = true ↔ ∀ c ∈ cs, c.1.holds (w.cmp c.2) := by
    obtain ⟨r, h1, h2⟩ := C10_range_meaning [cs] (by simp) (by simpa using fun a b h => hp (a, b) h)
    exact ⟨r, h1, fun w => by rw [h2 w]; simp⟩
  unfold versionToRez
  rw [hparts]
  match cs, hne, hv, hp, hgt, asis with
  | [(o, v)], _, hv, hp, hgt, asis =>
    have hu := hv _ List.mem_cons_self
    cases o with
    | ge =>
      obtain ⟨r, h1, h2⟩ := C10_plus v hu.1.1 hu.2.1
      exact ⟨r, h1, fun w => by rw [h2 w]; simp [Op.holds]⟩
    | eq =>
      obtain ⟨r, h1, h2⟩ := bare_range v hu
      exact ⟨r, h1, fun w => by rw [h2 w]; simp [Op.holds]⟩
    | gt => exact absurd (hgt _ List.mem_cons_self rfl) (by simp)
    | le => exact asis
    | lt => exact asis
    | ne => exact asis
  | [(o, v), (o', v')], _, hv, hp, hgt, asis =>
    have hu := hv (o, v) (by simp)
    have hu' := hv (o', v') (by simp)
    have g1 : o ≠ .gt := fun e => absurd (hgt (o, v) (by simp) e) (by simp)
    have g2 : o' ≠ .gt := fun e => absurd (hgt (o', v') (by simp) e) (by simp)
    simp only [List.map_cons, List.map_nil, List.find?_cons, List.find?_nil, begins_gt, begins_lt]
    have two : ∀ {a b : Version} {u : Op}, Usual a → Usual b → ∃ r, VersionRange.parse
        ((dropPairs (Op.ge.text ++ a.asStr)).dropWhile (· == '>') ++ c!"+" ++ (u.text ++ b.asStr)) = some r ∧
        ∀ w, r.contains w = true ↔ w.cmp a ≠ .lt ∧ u.holds (w.cmp b) := by
      intro a b u ha hb
      rw [low_text ha.1.1, List.append_assoc]
      exact plus_then a b u ha.1.1 hb.1.1 ha.2.1
    have fin : ∀ {u : Op}, (∃ r, VersionRange.parse
        ((dropPairs (Op.ge.text ++ v.asStr)).dropWhile (· == '>') ++ c!"+" ++ (u.text ++ v'.asStr)) = some r ∧
        ∀ w, r.contains w = true ↔ ∀ c ∈ [(Op.ge, v), (u, v')], c.1.holds (w.cmp c.2)) := by
      intro u
      obtain ⟨r, h1, h2⟩ := two (u := u) hu hu'
      exact ⟨r, h1, fun w => by rw [h2 w]; simp [Op.holds]⟩
    have fin' : ∀ {u : Op}, (∃ r, VersionRange.parse
        ((dropPairs (Op.ge.text ++ v'.asStr)).dropWhile (· == '>') ++ c!"+" ++ (u.text ++ v.asStr)) = some r ∧
        ∀ w, r.contains w = true ↔ ∀ c ∈ [(u, v), (Op.ge, v')], c.1.holds (w.cmp c.2)) := by
      intro u
      obtain ⟨r, h1, h2⟩ := two (u := u) hu' hu
      exact ⟨r, h1, fun w => by rw [h2 w]; simp [Op.holds, and_comm]⟩
    cases o <;> cases o'
    case ge.le => exact fin
    case ge.lt => exact fin
    case le.ge => exact fin'
    case lt.ge => exact fin'
    all_goals first
      | exact absurd rfl g1
      | exact absurd rfl g2
      | exact asis
  | a :: b :: c :: cs, _, _, _, _, asis => exact asis

/-- What is asked for alone with `>` is not kept: the version itself is let in. -/
theorem C225_above_false : ∃ v r, Version.parse c!"1.0" = some v ∧ versionToRez c!">1.0" = c!"1.0+" ∧
    VersionRange.parse c!"1.0+" = some r ∧ r.contains v = true := ⟨_, _, rfl, by decide, rfl, by decide⟩

/-- The versions of the examples. -/
theorem usual_versions : ∃ a b, Version.parse c!"1.0" = some a ∧ Version.parse c!"2.0-rc1" = some b ∧ Usual a ∧ Usual b ∧
    Written [(.lt, b), (.ge, a)] c!"<2.0-rc1 , >=1.0" ∧ versionToRez c!"<2.0-rc1 , >=1.0" = c!"1.0+<2.0-rc1" :=
  ⟨_, _, rfl, rfl, ⟨⟨⟨c!"1.0", rfl⟩, by decide⟩, by decide, by decide⟩, ⟨⟨⟨c!"2.0-rc1", rfl⟩, by decide⟩, by decide, by decide⟩,
    ⟨[c!"<2.0-rc1 ", c!" >=1.0"], rfl, .cons ⟨[], c!" ", by unfold Blanks; decide, by unfold Blanks; decide, by decide⟩
      (.cons ⟨c!" ", [], by unfold Blanks; decide, by unfold Blanks; decide, by decide⟩ .nil)⟩, by decide⟩

namespace PipApiLemmas

theorem tok_lower {c : Char} (h : isTok c = true) : isTok (lowerChar c) = true := by
  by_cases h2 : lowerChar c = c
  · rw [h2]; exact h
  · obtain ⟨n, a, b, e⟩ := PipLemmas.lower_other h2
    rw [e]
    clear e
    interval_cases n <;> decide

/-- The name of a package without hyphen and underscore. -/
theorem plain_name {n : Str} (hn : PkgName n) (hd : '-' ∉ n) (hu : '_' ∉ n) : PkgName (plain n) ∧ '-' ∉ plain n := by
  have key : ∀ c ∈ plain n, (isTok c = true ∨ c = '.') ∧ c ≠ '-' := by
    intro c hc
    obtain ⟨d, hdm, rfl⟩ := List.mem_map.1 hc
    have h1 : d ≠ '_' := fun e => hu (e ▸ hdm)
    rw [if_neg h1]
    rcases hn.2 d hdm with h | h | h
    · have := tok_lower h
      exact ⟨.inl this, isTok_ne this (by decide)⟩
    · exact absurd (h ▸ hdm) hd
    · subst h; exact ⟨.inr (by decide), by decide⟩
  refine ⟨⟨fun h => hn.1 (List.map_eq_nil_iff.1 h), fun c hc => ?_⟩, fun h => (key _ h).2 rfl⟩
  rcases (key c hc).1 with h | h
  · exact .inl h
  · exact .inr (.inr h)

theorem requirement_text {n spec : Str} (hn : PkgName n) (hs : ∀ c ∈ spec, isWs c = false ∧ c ≠ '[')
    (hh : ∃ c r, spec = c :: r ∧ isSpecChar c = true) :
    requirement (n ++ spec) = plain n ++ c!"-" ++ versionToRez spec := by
  have hnc : ∀ c ∈ n, isWs c = false ∧ c ≠ '[' ∧ isSpecChar c = false := by
    intro c hc
    have := PkgName.all hn c hc
    refine ⟨nameChar_noWs this, nameChar_ne this (by decide), ?_⟩
    unfold isSpecChar
    simp [nameChar_ne this (d := '>') (by decide), nameChar_ne this (d := '<') (by decide), nameChar_ne this (d := '=') (by decide),
      nameChar_ne this (d := '!') (by decide)]
  have h1 : (n ++ spec).takeWhile (· != '[') = n ++ spec := by
    rw [List.takeWhile_eq_self_iff]
    intro c hc
    rcases List.mem_append.1 hc with h | h
    · simp [(hnc c h).2.1]
    · simp [(hs c h).2]
  have h2 : trim (n ++ spec) = n ++ spec := trim_of_noWs (by
    intro c hc
    rcases List.mem_append.1 hc with h | h
    · exact (hnc c h).1
    · exact (hs c h).1)
  obtain ⟨c, r, rfl, hc⟩ := hh
  obtain ⟨h3, h4⟩ := takeWhile_run (p := (!isSpecChar ·)) (a := n) (r := c :: r) (fun c hc => by simp [(hnc c hc).2.2])
    (fun d hd => by simp at hd; subst hd; simp [hc])
  unfold requirement
  simp only [h1, h2, h3, h4, normalize_eq]
  rfl

theorem written_plain (cs : List (Op × Version)) : Written cs (joinWith c!"," (cs.map fun c => c.1.text ++ c.2.asStr)) := by
  refine ⟨_, rfl, ?_⟩
  induction cs with
  | nil => exact .nil
  | cons c cs ih => exact .cons ⟨[], [], by simp [Blanks], by simp [Blanks], by simp⟩ ih

theorem spec_chars {cs : List (Op × Version)} (hv : ∀ c ∈ cs, Parsed c.2) :
    ∀ d ∈ joinWith c!"," (cs.map fun c => c.1.text ++ c.2.asStr), isWs d = false ∧ d ≠ '[' := by
  intro d hd
  refine ⟨conj_noWs hv d hd, fun e => ?_⟩
  subst e
  exact conj_not_mem hv (by decide) (by decide) (by decide) (by decide) (by decide) (by decide) hd

theorem spec_head (c : Op × Version) (cs : List (Op × Version)) :
    ∃ d r, joinWith c!"," ((c :: cs).map fun c => c.1.text ++ c.2.asStr) = d :: r ∧ isSpecChar d = true := by
  obtain ⟨o, v⟩ := c
  cases cs with
  | nil => cases o <;> exact ⟨_, _, rfl, by decide⟩
  | cons c' cs => cases o <;> exact ⟨_, _, rfl, by decide⟩

end PipApiLemmas

/-- C225: a requirement of at least a version, alone or with an upper bound before or after it, is converted to one that is read as
the same: of the package in lower case, with these comparisons.  The name has no hyphen and no underscore, and a version that stands
alone no hyphen. -/
theorem C225_requirement (n : Str) (hn : PkgName n) (hd : '-' ∉ n) (hu : '_' ∉ n) (a b : Version) (ha : Usual a) (hb : Usual b) :
    ('-' ∉ a.asStr → Requirement.parse (requirement (n ++ c!">=" ++ a.asStr)) = Requirement.parse (plain n ++ c!">=" ++ a.asStr)) ∧
    ∀ o : Op, o = .lt ∨ o = .le →
      Requirement.parse (requirement (n ++ c!">=" ++ a.asStr ++ c!"," ++ o.text ++ b.asStr)) =
        Requirement.parse (plain n ++ c!">=" ++ a.asStr ++ c!"," ++ o.text ++ b.asStr) ∧
      Requirement.parse (requirement (n ++ o.text ++ b.asStr ++ c!"," ++ c!">=" ++ a.asStr)) =
        Requirement.parse (plain n ++ c!">=" ++ a.asStr ++ c!"," ++ o.text ++ b.asStr) := by
  obtain ⟨hn', hd'⟩ := plain_name hn hd hu
  have text : ∀ (c : Op × Version) (cs : List (Op × Version)), (∀ x ∈ c :: cs, Parsed x.2) →
      requirement (n ++ joinWith c!"," ((c :: cs).map fun c => c.1.text ++ c.2.asStr)) =
        plain n ++ c!"-" ++ versionToRez (joinWith c!"," ((c :: cs).map fun c => c.1.text ++ c.2.asStr)) := by
    intro c cs hv
    exact requirement_text hn (spec_chars hv) (spec_head c cs)
  have parts : ∀ (c : Op × Version) (cs : List (Op × Version)), (∀ x ∈ c :: cs, Parsed x.2) →
      (splitChar ',' (joinWith c!"," ((c :: cs).map fun c => c.1.text ++ c.2.asStr))).map trim =
        (c :: cs).map fun c => c.1.text ++ c.2.asStr := by
    intro c cs hv
    exact parts_of (by simp) (written_plain _) hv
  refine ⟨fun hda => ?_, fun o ho => ?_⟩
  · have hv : ∀ x ∈ [(Op.ge, a)], Parsed x.2 := by simpa using ha.1.1
    have h1 := text (.ge, a) [] hv
    have h2 : versionToRez (joinWith c!"," ([(Op.ge, a)].map fun c => c.1.text ++ c.2.asStr)) = a.asStr ++ c!"+" := by
      unfold versionToRez
      rw [parts (.ge, a) [] hv]
      rfl
    rw [h2] at h1
    have h3 := C21_plus_partial .plain (plain n) hn' a ha.1.1 hda
    have h4 := C21_operator .plain (plain n) hn' .ge a ha.1
    simp only [Flag.text, List.nil_append, ROp.text] at h3 h4
    rw [h4, show n ++ c!">=" ++ a.asStr = n ++ joinWith c!"," ([(Op.ge, a)].map fun c => c.1.text ++ c.2.asStr) by
      simp [joinWith, Op.text], h1, ← List.append_assoc, h3]
    rfl
  · have h4 : Requirement.parse (plain n ++ c!">=" ++ a.asStr ++ c!"," ++ o.text ++ b.asStr) =
        Requirement.parse (plain n ++ c!"-" ++ (a.asStr ++ c!"+" ++ (o.text ++ b.asStr))) := by
      have h5 := C21_plus_upper_partial .plain (plain n) hn' hd' a b ha.1.1 hb.1
      have h6 : ∀ r : ROp, Requirement.parse (plain n ++ listText [(.ge, a), (r, b)]) =
          some ⟨plain n, some (.multiple [.greaterThanOrEqual a, r.constraint b]), false, false, [], [], none⟩ := by
        intro r
        have := parse_assemble .plain none (by simp) (body_list hn' (cs := [(.ge, a), (r, b)]) (by simp)
          (by intro c hc; simp at hc; rcases hc with rfl | rfl; exacts [ha.1, hb.1])) [] (by simp) [] (by simp)
        have e : ∀ x, (ROp.ge.constraint x) = .greaterThanOrEqual x := fun _ => rfl
        rw [show (Flag.plain == Flag.weak) = false from rfl, show (Flag.plain == Flag.conflict) = false from rfl] at this
        simpa [nsText, condText, Flag.text, e] using this
      rcases ho with rfl | rfl
      · have e1 := h5 false
        have e2 := h6 .lt
        simp only [Flag.text, List.nil_append, Bool.false_eq_true, if_false, List.append_nil] at e1
        rw [show plain n ++ c!">=" ++ a.asStr ++ c!"," ++ Op.lt.text ++ b.asStr = plain n ++ listText [(.ge, a), (.lt, b)] by
          simp [listText, ropText, joinWith, ROp.text, Op.text], e2,
          show plain n ++ c!"-" ++ (a.asStr ++ c!"+" ++ (Op.lt.text ++ b.asStr)) = plain n ++ c!"-" ++ a.asStr ++ c!"+<" ++ b.asStr by
          simp [Op.text], e1]
        rfl
      · have e1 := h5 true
        have e2 := h6 .le
        simp only [Flag.text, List.nil_append, if_true] at e1
        rw [show plain n ++ c!">=" ++ a.asStr ++ c!"," ++ Op.le.text ++ b.asStr = plain n ++ listText [(.ge, a), (.le, b)] by
          simp [listText, ropText, joinWith, ROp.text, Op.text], e2,
          show plain n ++ c!"-" ++ (a.asStr ++ c!"+" ++ (Op.le.text ++ b.asStr)) = plain n ++ c!"-" ++ a.asStr ++ c!"+<" ++ c!"=" ++ b.asStr by
          simp [Op.text], e1]
        rfl
    rw [h4]
    have v1 : ∀ x ∈ [(Op.ge, a), (o, b)], Parsed x.2 := by
      intro x hx; simp at hx; rcases hx with rfl | rfl; exacts [ha.1.1, hb.1.1]
    have v2 : ∀ x ∈ [(o, b), (Op.ge, a)], Parsed x.2 := by
      intro x hx; simp at hx; rcases hx with rfl | rfl; exacts [hb.1.1, ha.1.1]
    have t1 := text _ _ v1
    have t2 := text _ _ v2
    have z1 : versionToRez (joinWith c!"," ([(Op.ge, a), (o, b)].map fun c => c.1.text ++ c.2.asStr)) =
        a.asStr ++ c!"+" ++ (o.text ++ b.asStr) := by
      unfold versionToRez
      rw [parts _ _ v1]
      simp only [List.map_cons, List.map_nil, List.find?_cons, List.find?_nil, begins_gt, begins_lt]
      have := low_text ha.1.1
      rcases ho with rfl | rfl
      · show (dropPairs (Op.ge.text ++ a.asStr)).dropWhile (· == '>') ++ c!"+" ++ (Op.lt.text ++ b.asStr) = _
        rw [this]
      · show (dropPairs (Op.ge.text ++ a.asStr)).dropWhile (· == '>') ++ c!"+" ++ (Op.le.text ++ b.asStr) = _
        rw [this]
    have z2 : versionToRez (joinWith c!"," ([(o, b), (Op.ge, a)].map fun c => c.1.text ++ c.2.asStr)) =
        a.asStr ++ c!"+" ++ (o.text ++ b.asStr) := by
      unfold versionToRez
      rw [parts _ _ v2]
      simp only [List.map_cons, List.map_nil, List.find?_cons, List.find?_nil, begins_gt, begins_lt]
      have := low_text ha.1.1
      rcases ho with rfl | rfl
      · show (dropPairs (Op.ge.text ++ a.asStr)).dropWhile (· == '>') ++ c!"+" ++ (Op.lt.text ++ b.asStr) = _
        rw [this]
      · show (dropPairs (Op.ge.text ++ a.asStr)).dropWhile (· == '>') ++ c!"+" ++ (Op.le.text ++ b.asStr) = _
        rw [this]
    rw [z1] at t1
    rw [z2] at t2
    constructor
    · rw [show n ++ c!">=" ++ a.asStr ++ c!"," ++ o.text ++ b.asStr =
        n ++ joinWith c!"," ([(Op.ge, a), (o, b)].map fun c => c.1.text ++ c.2.asStr) by simp [joinWith, Op.text], t1]
    · rw [show n ++ o.text ++ b.asStr ++ c!"," ++ c!">=" ++ a.asStr =
        n ++ joinWith c!"," ([(o, b), (Op.ge, a)].map fun c => c.1.text ++ c.2.asStr) by simp [joinWith, Op.text], t2]

example : PkgName c!"NumPy" ∧ '-' ∉ c!"NumPy" ∧ '_' ∉ c!"NumPy" ∧ plain c!"NumPy" = c!"numpy" :=
  ⟨⟨by decide, by decide⟩, by decide, by decide, by decide⟩

/-- C225: a requirement of one version becomes one of that version in the way of the solver, and one of any version the name. -/
theorem C225_exact (n : Str) (hn : PkgName n) (a : Version) (ha : Usual a) :
    requirement (n ++ c!"==" ++ a.asStr) = plain n ++ c!"-" ++ a.asStr ∧ requirement n = plain n := by
  constructor
  · have hv : ∀ x ∈ [(Op.eq, a)], Parsed x.2 := by simpa using ha.1.1
    have h1 := requirement_text hn (spec_chars hv) (spec_head (Op.eq, a) [])
    have h2 : versionToRez (joinWith c!"," ([(Op.eq, a)].map fun c => c.1.text ++ c.2.asStr)) = a.asStr := by
      unfold versionToRez
      rw [parts_of (by simp) (written_plain _) hv]
      rfl
    rw [h2] at h1
    rw [← h1]
    simp [joinWith, Op.text]
  · have hnc : ∀ c ∈ n, isWs c = false ∧ c ≠ '[' ∧ isSpecChar c = false := by
      intro c hc
      have := PkgName.all hn c hc
      refine ⟨nameChar_noWs this, nameChar_ne this (by decide), ?_⟩
      unfold isSpecChar
      simp [nameChar_ne this (d := '>') (by decide), nameChar_ne this (d := '<') (by decide), nameChar_ne this (d := '=') (by decide),
        nameChar_ne this (d := '!') (by decide)]
    have h1 : n.takeWhile (· != '[') = n := by
      rw [List.takeWhile_eq_self_iff]; intro c hc; simp [(hnc c hc).2.1]
    have h2 : trim n = n := trim_of_noWs fun c hc => (hnc c hc).1
    obtain ⟨h3, h4⟩ := takeWhile_run (p := (!isSpecChar ·)) (a := n) (r := []) (fun c hc => by simp [(hnc c hc).2.2]) (by simp)
    rw [List.append_nil] at h3 h4
    unfold requirement
    simp only [h1, h2, h3, h4, normalize_eq]
    rfl

/-- The wider readings are false.  An upper bound alone becomes a requirement of a package whose name ends in a hyphen. -/
theorem C225_upper_false : requirement c!"numpy<2.0" = c!"numpy-<2.0" ∧
    ∃ q, PackageRequirement.parse c!"numpy-<2.0" = .ok q ∧ q.name = c!"numpy-" :=
  ⟨by decide, ⟨c!"numpy-", some c!"<2.0", false, false⟩, by decide +kernel, rfl⟩

/-- Of a name with an underscore or a hyphen the first word is taken for the name. -/
theorem C225_underscore_false : requirement c!"typing_extensions==4.0" = c!"typing-extensions-4.0" ∧
    ∃ q, PackageRequirement.parse c!"typing-extensions-4.0" = .ok q ∧ q.name = c!"typing" :=
  ⟨by decide, ⟨c!"typing", some c!"extensions-4.0", false, false⟩, by decide +kernel, rfl⟩

/-- With extras the version is lost; a compatible version and a blank after the name become part of the name. -/
theorem C225_forms_false : requirement c!"requests[socks]>=2.0" = c!"requests" ∧ requirement c!"numpy~=1.2" = c!"numpy~-=1.2" ∧
    requirement c!"numpy >=1.0" = c!"numpy -1.0+" := by decide

/-- C225: `pip_install` gives the names, in order; what follows a comparison is not looked at. -/
theorem C225_install (packages : List Str) : (install packages).length = packages.length ∧
    ∀ i (hi : i < packages.length) (hi' : i < (install packages).length) n rest, packages[i] = n ++ rest →
      (∀ c ∈ n, c ∉ c!"=><!~") → (∀ c, rest.head? = some c → c ∈ c!"=><!~") → (install packages)[i] = plain (trim n) := by
  refine ⟨List.length_map _, fun i hi hi' n rest he hn hr => ?_⟩
  have hm : (install packages)[i] = installName (packages[i]) := List.getElem_map _
  rw [hm, he]
  unfold installName
  obtain ⟨h1, -⟩ := takeWhile_run (p := fun c => !(c == '=' || c == '>' || c == '<' || c == '!' || c == '~')) (a := n) (r := rest)
    (fun c hc => by have := hn c hc; simpa [not_or, and_assoc] using this)
    (fun c hc => by have := hr c hc; simp at this ⊢; tauto)
  rw [h1, normalize_eq]

example : install [c!"Foo_Bar >=1", c!"b"] = [c!"foo-bar", c!"b"] := by decide

namespace PipApiLemmas

theorem names_iff (name r : Str) : Names name r ↔ (requiredName r == normalize name) = true := by
  unfold Names requiredName
  rw [normalize_eq, normalize_eq, beq_iff_eq]
  have hd := List.takeWhile_append_dropWhile (l := trim r)
    (p := fun c => !(c == '-' || c == '<' || c == '>' || c == '=' || c == '!' || c == '~'))
  constructor
  · rintro ⟨a, b, h1, h2, h3, h4⟩
    obtain ⟨h5, -⟩ := takeWhile_run (p := fun c => !(c == '-' || c == '<' || c == '>' || c == '=' || c == '!' || c == '~')) (a := a) (r := b)
      (fun c hc => by have := h2 c hc; simpa [not_or, and_assoc] using this)
      (fun c hc => by have := h3 c hc; simp at this ⊢; tauto)
    rw [h1, h5, h4]
  · intro h
    refine ⟨_, _, hd.symm, ?_, ?_, h⟩
    · intro c hc
      have := List.mem_takeWhile_imp hc
      simpa [not_or, and_assoc] using this
    · intro c hc
      have := List.head?_dropWhile_not (fun c => !(c == '-' || c == '<' || c == '>' || c == '=' || c == '!' || c == '~')) (trim r)
      rw [hc] at this
      simp at this ⊢
      tauto

theorem count_same (n k : Str) (l : List Package) (f : Package → Bool) :
    ((l.filter f).map fun _ => k).count n = if k = n then l.countP f else 0 := by
  have : ((l.filter f).map fun _ => k) = List.replicate (l.filter f).length k := by
    rw [List.map_const']
  rw [this, List.count_replicate, List.countP_eq_length_filter]
  simp

end PipApiLemmas

open Classical in
/-- C225: the dependents of a package are the families with a package that names it, in order, each as often as it has such
packages. -/
theorem C225_dependents {w : World} (hs : SortingOk w.srt) (name : Str) (paths : Option (List Str)) (hr : Readable w paths)
    (hc : ∀ n, Comparable (available w paths n)) :
    ∃ l, dependents w name paths = .ok l ∧ l.Pairwise (fun a b => cmpStr a b ≠ .gt) ∧
      ∀ n, l.count n = (available w paths n).countP fun p => decide (∃ r ∈ p.requires, Names name r) := by
  obtain ⟨l, hl, hn, hi⟩ := C207_families hs paths hr hc
  obtain ⟨ns, h1, h2, h3⟩ := C207_names w paths hr
  rw [hn] at h1
  cases h1
  have hf : ∀ p : Package, decide (∃ r ∈ p.requires, Names name r) = p.requires.any fun r => requiredName r == normalize name := by
    intro p
    rw [Bool.eq_iff_iff, decide_eq_true_iff, List.any_eq_true]
    exact exists_congr fun r => and_congr_right fun _ => names_iff name r
  refine ⟨_, by unfold dependents; rw [hl], ?_, fun n => ?_⟩
  · rw [List.pairwise_flatMap]
    constructor
    · intro f _
      rw [List.pairwise_map]
      exact List.pairwise_of_forall fun _ _ => by rw [cmpStr_refl]; simp
    · have h2' : l.Pairwise fun a b => cmpStr a.1 b.1 = .lt := List.pairwise_map.1 h2
      refine h2'.imp fun {a b} hab x hx y hy => ?_
      obtain ⟨_, _, rfl⟩ := List.mem_map.1 hx
      obtain ⟨_, _, rfl⟩ := List.mem_map.1 hy
      rw [hab]; simp
  · simp only [hf]
    have hnd : (l.map Prod.fst).Nodup := h2.imp fun {a b} hab h => by
      subst h
      rw [cmpStr_refl] at hab
      cases hab
    by_cases hm : n ∈ l.map Prod.fst
    · obtain ⟨f, hfl, rfl⟩ := List.mem_map.1 hm
      obtain ⟨u, v, rfl⟩ := List.append_of_mem hfl
      have hno : ∀ g ∈ u ++ v, g.1 ≠ f.1 := by
        intro g hg e
        rw [List.map_append, List.map_cons] at hnd
        have := (List.nodup_middle.1 hnd)
        rw [List.nodup_cons, ← List.map_append] at this
        exact this.1 (List.mem_map.2 ⟨g, hg, e⟩)
      have zero : ∀ k : List (Str × List Package), (∀ g ∈ k, g.1 ≠ f.1) → (k.flatMap fun f => (f.2.filter fun p => p.requires.any
          fun r => requiredName r == normalize name).map fun _ => f.1).count f.1 = 0 := by
        intro k hk
        rw [List.count_eq_zero]
        intro hm
        obtain ⟨g, hg, hx⟩ := List.mem_flatMap.1 hm
        obtain ⟨_, _, e⟩ := List.mem_map.1 hx
        exact hk g hg e
      rw [List.flatMap_append, List.flatMap_cons, List.count_append, List.count_append,
        zero u fun g hg => hno g (List.mem_append_left _ hg), zero v fun g hg => hno g (List.mem_append_right _ hg), count_same, if_pos rfl,
        (hi f (by simp)).1.countP_eq]
      omega
    · have he : available w paths n = [] := by
        by_contra hx
        exact hm ((h3 n).2 hx)
      rw [he, List.count_eq_zero.2]
      · rfl
      · intro hx
        obtain ⟨g, hg, hx⟩ := List.mem_flatMap.1 hx
        obtain ⟨_, _, e⟩ := List.mem_map.1 hx
        exact hm (List.mem_map.2 ⟨g, hg, e⟩)

example : dependents chainWorld c!"A" none = .ok [c!"b"] ∧ SortingOk chainWorld.srt ∧ Readable chainWorld none ∧
    (∀ n, Comparable (available chainWorld none n)) := ⟨by decide +kernel, demoSorting_ok, chain_readable, chain_comparable⟩

/-- A package whose name has a hyphen, as converted names have, is required by none. -/
theorem C225_hyphen_false : requirement c!"typing_extensions>=4" = c!"typing-extensions-4+" ∧
    dependents (needWorld [needing c!"b" [c!"typing-extensions-4+"]]) c!"typing_extensions" none = .ok [] := by decide +kernel

open Serial Rez.Spec.Serial SerialLemmas PipLemmas in
/-- C225: for plain texts, the file is a program that assigns the name, the version, the description, the author and, if there are
any, the requirements, and defines the commands. -/
theorem C225_program (p : PipPackage) (hn : PipLemmas.Plain p.name) (hv : PipLemmas.Plain p.version) (hd : PipLemmas.Plain p.description)
    (hr : ∀ r ∈ p.requires, PipLemmas.Plain r) :
    Program (PipApi.packagePy p) ([.assign c!"name" (.str p.name), .assign c!"version" (.str p.version),
      .assign c!"description" (.str p.description), .assign c!"authors" (.list [.str c!"pip"])] ++
      (if p.requires = [] then [] else [.assign c!"requires" (.list (p.requires.map .str))]) ++
      [.function c!"commands" [c!"import os",
        c!"env.PYTHONPATH.prepend(\"{root}/lib/python{python.major}.{python.minor}/site-packages\")"]]) := by
  have h1 := program_assign (n := c!"name") (ident_dec rfl) (quoted_plain hn)
  have h2 := program_assign (n := c!"version") (ident_dec rfl) (quoted_plain hv)
  have h3 := program_assign (n := c!"description") (ident_dec rfl) (quoted_plain hd)
  have h4 := program_assign (n := c!"authors") (ident_dec rfl)
    (Expr.list (Items.last (a := []) (b := []) (blank_dec rfl) (quoted_plain (s := c!"pip") (by decide)) (blank_dec rfl)))
  have h6 := Program.function (n := c!"commands") (body := [c!"import os",
      c!"env.PYTHONPATH.prepend(\"{root}/lib/python{python.major}.{python.minor}/site-packages\")"])
    (List.all_eq_true.mp (ident_dec rfl).1) (ident_dec rfl).2 ⟨c!"import os", by simp, by decide⟩ (by unfold Without; decide) .done
  have h5 : Program (PipApi.requiresText p.requires)
      (if p.requires = [] then [] else [.assign c!"requires" (.list (p.requires.map .str))]) := by
    unfold PipApi.requiresText
    cases hp : p.requires with
    | nil => exact .done
    | cons x l =>
      have hi : ∀ (l : List Str) (a : Str), Blank a → (∀ r ∈ l, PipLemmas.Plain r) → l ≠ [] →
          Items (a ++ joinWith c!"\n" (l.map fun r => c!"    \"" ++ r ++ c!"\",") ++ c!"\n") (l.map .str) := by
        intro l
        induction l with
        | nil => intro _ _ _ h; exact absurd rfl h
        | cons y l ih =>
          intro a ha hl _
          have hy := quoted_plain (hl y List.mem_cons_self)
          cases l with
          | nil =>
            have := Items.more (blank_append ha (blank_dec (a := c!"    ") rfl)) hy (b := []) (fun c hc => by cases hc)
              (Items.none (s := c!"\n") (blank_dec rfl))
            simpa [joinWith, quoted] using this
          | cons z l =>
            have := Items.more (blank_append ha (blank_dec (a := c!"    ") rfl)) hy (b := []) (fun c hc => by cases hc)
              (ih c!"\n" (blank_dec rfl) (fun r hr => hl r (List.mem_cons_of_mem _ hr)) (by simp))
            simpa [joinWith, quoted] using this
      have := program_assign (n := c!"requires") (ident_dec rfl) (Expr.list (hi (x :: l) c!"\n" (blank_dec rfl) (by rw [← hp]; exact hr) (by simp)))
      have := Program.blank this
      simpa using this
  have := program_append h1 (program_append h2 (program_append h3 (program_append h4 (program_append h5 (.blank h6)))))
  unfold PipApi.packagePy
  simpa [indented, quoted] using this

example : PipLemmas.Plain c!"numpy" ∧ PipLemmas.Plain c!"numpy-1.0+<2.0" := by unfold PipLemmas.Plain; decide

/-- A quote in the description ends the text: what follows becomes part of the program. -/
theorem C225_quote_false : c!"description = \"\"\nimport os\n#\"\n" <:+: PipApi.packagePy ⟨c!"a", c!"1", [], c!"\"\nimport os\n#"⟩ :=
  ⟨c!"name = \"a\"\nversion = \"1\"\n", _, rfl⟩

/-- C225: a converted package has the name as packages have it, the version and the description as given, and one requirement
for each that was given, in order, converted on its own: a version that is pinned becomes `name-version`. -/
theorem C225_converted (name version : Str) (reqs : List Str) (desc : Str) :
    (convert name version (some reqs) (some desc)).name = plain name ∧
    (convert name version (some reqs) (some desc)).version = version ∧
    (convert name version (some reqs) (some desc)).description = desc ∧
    convert name version none none = ⟨plain name, version, [], []⟩ ∧
    (convert name version (some reqs) (some desc)).requires.length = reqs.length ∧
    (∀ i : Nat, (convert name version (some reqs) (some desc)).requires[i]? = (reqs[i]?).map requirement) ∧
    ∀ (i : Nat) (n : Str) (a : Version), PkgName n → Usual a → reqs[i]? = some (n ++ c!"==" ++ a.asStr) →
      (convert name version (some reqs) (some desc)).requires[i]? = some (plain n ++ c!"-" ++ a.asStr) := by
  have hr : (convert name version (some reqs) (some desc)).requires = reqs.map requirement := rfl
  refine ⟨normalize_eq _, rfl, rfl, by rw [← normalize_eq]; rfl, by simp [hr], fun i => by rw [hr, List.getElem?_map], ?_⟩
  intro i n a hn ha hi
  rw [hr, List.getElem?_map, hi]
  exact congrArg some (C225_exact n hn a ha).1

example : convert c!"My_Tool" c!"1.0" (some [c!"numpy==1.2"]) none = ⟨c!"my-tool", c!"1.0", [c!"numpy-1.2"], []⟩ := by decide

/-- C225: writing succeeds exactly when the package may be overwritten or nothing is there, and directory and file can be made. -/
theorem C225_writes (d : Disk) (p : PipPackage) (root : List Str) (overwrite : Bool) :
    (write d p root overwrite).1 = some (root ++ [p.name, p.version]) ↔
      (overwrite = true ∨ (root ++ [p.name, p.version] ∉ d.dirs ∧ mget d.files (root ++ [p.name, p.version]) = none)) ∧
        d.cannotMake (root ++ [p.name, p.version]) = false ∧
        d.cannotWrite (root ++ [p.name, p.version, c!"package.py"]) = false := by
  have ha : root ++ [p.name, p.version] ++ [c!"package.py"] = root ++ [p.name, p.version, c!"package.py"] := by simp
  unfold write
  simp only [ha]
  cases overwrite <;> cases hm : d.cannotMake (root ++ [p.name, p.version]) <;>
    cases hw : d.cannotWrite (root ++ [p.name, p.version, c!"package.py"]) <;>
    by_cases hd : root ++ [p.name, p.version] ∈ d.dirs <;> cases hf : mget d.files (root ++ [p.name, p.version]) <;>
    simp [hd]

/-- C225: a package that is there is left as it is, unless it may be overwritten; if writing succeeds the file has the text, and no
other file has changed in any case. -/
theorem C225_write (d : Disk) (p : PipPackage) (root : List Str) (overwrite : Bool) :
    (overwrite = false → root ++ [p.name, p.version] ∈ d.dirs → write d p root overwrite = (none, d)) ∧
    (∀ f, f ≠ root ++ [p.name, p.version, c!"package.py"] → mget (write d p root overwrite).2.files f = mget d.files f) ∧
    (∀ dir, (write d p root overwrite).1 = some dir → dir = root ++ [p.name, p.version] ∧ dir ∈ (write d p root overwrite).2.dirs ∧
      mget (write d p root overwrite).2.files (dir ++ [c!"package.py"]) = some (PipApi.packagePy p)) ∧
    ((write d p root overwrite).1 = none → (write d p root overwrite).2.files = d.files) := by
  unfold write
  simp only
  split
  · rename_i h
    exact ⟨fun _ _ => rfl, fun _ _ => rfl, (by intro _ h; cases h), fun _ => rfl⟩
  · rename_i h
    refine ⟨fun h1 h2 => ?_, ?_⟩
    · exact absurd (by simp [h1, h2]) h
    · split
      · exact ⟨fun _ _ => rfl, (by intro _ h; cases h), fun _ => rfl⟩
      · split
        · exact ⟨fun _ _ => rfl, (by intro _ h; cases h), fun _ => rfl⟩
        · refine ⟨fun f hf => ?_, fun dir hd => ?_, fun h => by cases h⟩
          · have : ¬ f = root ++ [p.name, p.version] ++ [c!"package.py"] := fun e => hf (by rw [e]; simp)
            rw [mget_mset, if_neg this]
          · obtain rfl := Option.some.inj hd
            exact ⟨rfl, List.mem_cons_self, by rw [mget_mset, if_pos rfl]⟩

example : (write ⟨[], [], fun _ => false, fun _ => false⟩ ⟨c!"a", c!"1", [], []⟩ [c!"pkgs"] false).1 = some [c!"pkgs", c!"a", c!"1"] := by
  decide

end Rez.Props
