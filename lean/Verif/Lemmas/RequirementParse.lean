import Verif.Spec.Requirement
import Verif.Lemmas.RangeParse
/-! Lemmas about the requirement parser. -/
namespace Rez
open Spec

theorem nameChar_iff {c : Char} : nameChar c = true ↔ isTok c = true ∨ c = '-' ∨ c = '.' := by
  simp [nameChar, or_assoc]

theorem nameChar_ne {c d : Char} (h : nameChar c = true) (hd : nameChar d = false) : c ≠ d := by
  rintro rfl; rw [h] at hd; cases hd

theorem nameChar_noWs {c : Char} (h : nameChar c = true) : isWs c = false := by
  rcases nameChar_iff.mp h with h | rfl | rfl
  · exact isTok_not_ws h
  · decide
  · decide

theorem PkgName.all {s : Str} (h : PkgName s) : ∀ c ∈ s, nameChar c = true :=
  fun c hc => nameChar_iff.mpr (h.2 c hc)

theorem PkgName.not_mem {s : Str} (h : PkgName s) {d : Char} (hd : nameChar d = false) : d ∉ s :=
  fun hm => nameChar_ne (PkgName.all h d hm) hd rfl

theorem takeWhile_run {p : Char → Bool} {a r : Str} (ha : ∀ c ∈ a, p c = true)
    (hr : ∀ c, r.head? = some c → p c = false) :
    (a ++ r).takeWhile p = a ∧ (a ++ r).dropWhile p = r := by
  induction a with
  | nil =>
    cases r with
    | nil => simp
    | cons c r => have := hr c rfl; simp [this]
  | cons c a ih =>
    have hc := ha c (by simp)
    have := ih (fun d hd => ha d (by simp [hd]))
    simp [hc, this]

theorem splitOnce_head {p : Char} {ps a r : Str} (h : p ∉ a) :
    splitOnce (p :: ps) (a ++ (p :: ps) ++ r) = some (a, r) := by
  induction a with
  | nil =>
    simp only [List.nil_append, List.cons_append, splitOnce]
    have : (p :: ps).isPrefixOf (p :: (ps ++ r)) = true := by
      rw [List.isPrefixOf_iff_prefix]; exact ⟨r, by simp⟩
    rw [if_pos this]
    simp
  | cons c a ih =>
    have hc : c ≠ p := fun e => h (by simp [e])
    simp only [List.cons_append, splitOnce]
    have : (p :: ps).isPrefixOf (c :: (a ++ (p :: (ps)) ++ r)) = false := by
      simp [List.isPrefixOf, Ne.symm hc]
    simp only [List.append_assoc, List.cons_append] at this ih ⊢
    rw [if_neg (by simp [this]), ih (fun hm => h (by simp [hm]))]
    rfl

theorem splitOnce_skip {p : Char} {ps a : Str} (h : p ∉ a) (r : Str) :
    splitOnce (p :: ps) (a ++ r) = (splitOnce (p :: ps) r).map fun x => (a ++ x.1, x.2) := by
  induction a with
  | nil => simp
  | cons c a ih =>
    have hc : c ≠ p := fun e => h (by simp [e])
    have : (p :: ps).isPrefixOf (c :: (a ++ r)) = false := by simp [List.isPrefixOf, Ne.symm hc]
    simp only [List.cons_append, splitOnce]
    rw [if_neg (by simp [this]), ih (fun hm => h (by simp [hm]))]
    cases splitOnce (p :: ps) r <;> rfl

theorem splitOnce_absent {p : Char} {ps s : Str} (h : p ∉ s) : splitOnce (p :: ps) s = none := by
  have := splitOnce_skip (ps := ps) h []
  rw [List.append_nil] at this
  rw [this]; rfl

/-- `!=` does not occur in a text without `=` -/
theorem containsNe_noEq {s : Str} (h : '=' ∉ s) : containsStr s c!"!=" = false := by
  induction s with
  | nil => rfl
  | cons c s ih =>
    simp only [List.mem_cons, not_or] at h
    rw [containsStr, ih h.2, Bool.or_false]
    cases s with
    | nil => simp [List.isPrefixOf]
    | cons d s =>
      simp only [List.mem_cons, not_or] at h
      simp [List.isPrefixOf, h.2.1]

theorem containsNe_skip {a : Str} (h : '!' ∉ a) (r : Str) : containsStr (a ++ r) c!"!=" = containsStr r c!"!=" := by
  induction a with
  | nil => rfl
  | cons c a ih =>
    simp only [List.mem_cons, not_or] at h
    simp only [List.cons_append, containsStr]
    rw [ih h.2]
    simp [List.isPrefixOf, h.1]

theorem rsplitOnce_absent {d : Char} {s : Str} (h : d ∉ s) : rsplitOnce d s = none := by
  induction s with
  | nil => rfl
  | cons c s ih =>
    simp only [List.mem_cons, not_or] at h
    simp [rsplitOnce, ih h.2, Ne.symm h.1]

theorem rsplitOnce_append {d : Char} (a : Str) {s : Str} (h : d ∉ s) : rsplitOnce d (a ++ d :: s) = some (a, s) := by
  induction a with
  | nil => simp [rsplitOnce, rsplitOnce_absent h]
  | cons c a ih => simp [rsplitOnce, ih]

theorem rsplitOnce_tail {d : Char} {s a b : Str} (h : rsplitOnce d s = some (a, b)) : d ∉ b := by
  induction s generalizing a b with
  | nil => simp [rsplitOnce] at h
  | cons c s ih =>
    rw [rsplitOnce] at h
    split at h
    · rename_i a' b' he
      simp at h; obtain ⟨rfl, rfl⟩ := h; exact ih he
    · rename_i he
      split at h
      · simp at h; obtain ⟨rfl, rfl⟩ := h
        intro hm
        obtain ⟨x, y, rfl⟩ := List.append_of_mem hm
        -- a text that contains `d` has a last occurrence
        have : ∀ l : Str, d ∈ l → rsplitOnce d l ≠ none := by
          intro l hl
          induction l with
          | nil => cases hl
          | cons e l ihl =>
            rw [rsplitOnce]
            split
            · simp
            · rename_i hn
              rcases List.mem_cons.mp hl with rfl | hl
              · simp
              · exact absurd hn (ihl hl)
        exact this _ hm he
      · cases h

/-- the architecture part is never read -/
theorem archOf_none (a c : Str) : archOf a c = none := by
  unfold archOf
  split
  · split
    · rename_i x tail h
      have := rsplitOnce_tail h
      rw [splitOnce_absent this]; rfl
    · rfl
  · rfl

/-! ### operators -/

theorem splitOp_text (o : ROp) {r : Str} (h1 : r ≠ []) (h2 : '\n' ∉ r) (h3 : r.head? ≠ some '=') :
    splitOp (o.text ++ r) = some (o.text, r) := by
  obtain ⟨c, r, rfl⟩ := List.exists_cons_of_ne_nil h1
  simp only [List.head?_cons, Option.some.injEq, ne_eq] at h3
  have h2' : (c :: r).contains '\n' = false := by simpa using h2
  cases o <;> simp [splitOp, ROp.text, List.findSome?, List.isPrefixOf, h2', Ne.symm h3]
  all_goals simp_all

theorem mkConstraint_text (o : ROp) (v : Version) : mkConstraint o.text v = some (o.constraint v) := by
  cases o <;> rfl

theorem display_op (o : ROp) (v : Version) : (o.constraint v).display = o.text ++ v.asStr := by
  cases o <;> rfl

theorem ROp.text_head (o : ROp) : ∃ c r, o.text = c :: r ∧ nameChar c = false ∧ c ≠ ':' ∧ c ≠ '-' ∧ c ≠ '+'  := by
  cases o <;> exact ⟨_, _, rfl, by decide, by decide, by decide, by decide⟩

theorem ROp.text_chars (o : ROp) : ∀ c ∈ o.text, c = '=' ∨ c = '>' ∨ c = '<' ∨ c = '~' := by
  cases o <;> decide

theorem RealVersion.head {v : Version} (h : RealVersion v) : v.asStr.head? ≠ some '=' := by
  intro he
  have := (Printed.of_parsed h.1).head _ he
  revert this; decide

theorem RealVersion.parse {v : Version} (h : Parsed v) : Version.parse v.asStr = some v := by
  rw [← parse_trim]; exact parse_asStr h

theorem RealVersion.not_mem {v : Version} (h : Parsed v) {d : Char} (hd : nameChar d = false) (h3 : d ≠ '+') :
    d ∉ v.asStr := by
  refine (Printed.of_parsed h).not_mem ?_ ?_ ?_ h3
  · cases ht : isTok d with
    | false => rfl
    | true => simp [nameChar, ht] at hd
  · rintro rfl; revert hd; decide
  · rintro rfl; revert hd; decide

/-! ### bodies: name and constraint -/

/-- a text that carries a name and constraint, and can be followed by conditions -/
structure Body (body name : Str) (c : Option VersionConstraint) : Prop where
  parse : parseNameVersion body = some (name, c)
  head : ∃ x, body.head? = some x ∧ nameChar x = true
  last : ∀ x, body.getLast? = some x → isWs x = false
  free : Free c!"\n[" body
  noColon : ∃ a r, body = a ++ r ∧ (∀ c ∈ a, nameChar c = true) ∧
    (∀ c, r.head? = some c → nameChar c = false ∧ c ≠ ':')

theorem name_head {name r : Str} (h : PkgName name) : ∃ x, (name ++ r).head? = some x ∧ nameChar x = true := by
  obtain ⟨h1, h2⟩ := h
  obtain ⟨c, cs, rfl⟩ := List.exists_cons_of_ne_nil h1
  exact ⟨c, rfl, nameChar_iff.mpr (h2 c (by simp))⟩

theorem getLast?_append_ne {a b : Str} (h : b ≠ []) : (a ++ b).getLast? = b.getLast? := by
  rw [List.getLast?_append]
  cases hb : b.getLast? with
  | none => simp [List.getLast?_eq_none_iff] at hb; exact absurd hb h
  | some x => rfl

theorem matchWildcard_noStar {s : Str} (h : '*' ∉ s) : matchWildcard s = none := by
  unfold matchWildcard
  have hd : '*' ∉ s.dropWhile nameChar := fun hm => h (List.dropWhile_subset _ hm)
  simp only
  split
  · rename_i c rest he
    rw [he] at hd
    simp only [List.mem_cons, not_or] at hd
    simp [hd.2.2.2]
  · rfl

theorem body_op {name : Str} (hn : PkgName name) (o : ROp) {v : Version} (hv : RealVersion v) :
    Body (name ++ o.text ++ v.asStr) name (some (o.constraint v)) := by
  have hp := Printed.of_parsed hv.1
  obtain ⟨x, xs, hx, hx1, hx2, hx3, hx4⟩ := ROp.text_head o
  have hrun := takeWhile_run (p := nameChar) (a := name) (r := o.text ++ v.asStr) (PkgName.all hn)
    (by intro c hc; rw [hx] at hc; simp at hc; rw [← hc]; exact hx1)
  have nm : ∀ d, nameChar d = false → d ≠ '+' → d ∉ c!"=><~" → d ∉ name ++ o.text ++ v.asStr := by
    intro d h1 h2 h3 hm
    simp only [List.mem_append] at hm
    rcases hm with (hm | hm) | hm
    · exact PkgName.not_mem hn h1 hm
    · have := ROp.text_chars o d hm
      rcases this with rfl | rfl | rfl | rfl <;> simp at h3
    · exact RealVersion.not_mem hv.1 h1 h2 hm
  refine ⟨?_, ?_, ?_, ?_, ?_⟩
  · unfold parseNameVersion
    rw [matchWildcard_noStar (nm '*' (by decide) (by decide) (by decide))]
    have hb : matchBasic (name ++ o.text ++ v.asStr) = some (name, o.text, v.asStr) := by
      unfold matchBasic
      rw [List.append_assoc, hrun.1, hrun.2]
      rw [splitOp_text o hv.2 (RealVersion.not_mem hv.1 (by decide) (by decide)) (RealVersion.head hv)]
      simp [hn.1]
    rw [hb]
    have hc : (name ++ o.text ++ v.asStr).contains ',' = false := by
      simpa using nm ',' (by decide) (by decide) (by decide)
    simp only [hc, Bool.false_eq_true, if_false, RealVersion.parse hv.1, mkConstraint_text]
    rfl
  · rw [List.append_assoc]; exact name_head hn
  · rw [getLast?_append_ne hv.2]
    intro x hx; exact hp.noWs x (List.mem_of_mem_getLast? hx)
  · intro d hd
    simp at hd
    rcases hd with rfl | rfl <;> exact nm _ (by decide) (by decide) (by decide)
  · refine ⟨name, o.text ++ v.asStr, by simp, PkgName.all hn, ?_⟩
    intro c hc; rw [hx] at hc; simp at hc; subst hc; exact ⟨hx1, hx2⟩

/-- the text of one constraint of a list -/
def ropText (c : ROp × Version) : Str := c.1.text ++ c.2.asStr

theorem parseSingleConstraint_text {c : ROp × Version} (h : RealVersion c.2) :
    parseSingleConstraint (ropText c) = some (c.1.constraint c.2) := by
  have hw : ∀ d ∈ ropText c, isWs d = false := by
    intro d hd
    simp only [ropText, List.mem_append] at hd
    rcases hd with hd | hd
    · rcases ROp.text_chars _ d hd with rfl | rfl | rfl | rfl <;> decide
    · exact (Printed.of_parsed h.1).noWs d hd
  unfold parseSingleConstraint
  rw [trim_of_noWs hw]
  simp only [ropText]
  rw [splitOp_text c.1 h.2 (RealVersion.not_mem h.1 (by decide) (by decide)) (RealVersion.head h)]
  simp [RealVersion.parse h.1, mkConstraint_text]

theorem ropText_noWs {c : ROp × Version} (h : RealVersion c.2) : ∀ d ∈ ropText c, isWs d = false := by
  intro d hd
  simp only [ropText, List.mem_append] at hd
  rcases hd with hd | hd
  · rcases ROp.text_chars _ d hd with rfl | rfl | rfl | rfl <;> decide
  · exact (Printed.of_parsed h.1).noWs d hd

theorem ropText_not_mem {c : ROp × Version} (h : RealVersion c.2) {d : Char} (h1 : nameChar d = false) (h2 : d ≠ '+')
    (h3 : d ∉ c!"=><~") : d ∉ ropText c := by
  intro hm
  simp only [ropText, List.mem_append] at hm
  rcases hm with hm | hm
  · have := ROp.text_chars c.1 d hm
    rcases this with rfl | rfl | rfl | rfl <;> simp at h3
  · exact RealVersion.not_mem h.1 h1 h2 hm

theorem joinWith_two (sep : Str) (a b : Str) (l : List Str) :
    joinWith sep (a :: b :: l) = a ++ sep ++ joinWith sep (b :: l) := rfl

theorem joinWith_last {sep : Str} {ps : List Str} (hne : ps ≠ []) (h : ∀ p ∈ ps, p ≠ []) {x : Char}
    (hx : (joinWith sep ps).getLast? = some x) : ∃ p ∈ ps, p.getLast? = some x := by
  induction ps with
  | nil => exact absurd rfl hne
  | cons p qs ih =>
    cases qs with
    | nil => exact ⟨p, by simp, hx⟩
    | cons q qs =>
      rw [joinWith_two] at hx
      have hj : joinWith sep (q :: qs) ≠ [] := by
        cases qs with
        | nil => exact h q (by simp)
        | cons r rs => rw [joinWith_two]; simp [h q (by simp)]
      rw [getLast?_append_ne hj] at hx
      obtain ⟨p', hp', hl⟩ := ih (by simp) (fun p hp => h p (by simp [hp])) hx
      exact ⟨p', by simp [hp'], hl⟩

theorem ropText_ne_nil (c : ROp × Version) : ropText c ≠ [] := by
  obtain ⟨x, xs, hx, _⟩ := ROp.text_head c.1
  simp [ropText, hx]

/-- the text of a list of constraints -/
def listText (cs : List (ROp × Version)) : Str := joinWith c!"," (cs.map ropText)

theorem parseVersionConstraints_list {cs : List (ROp × Version)} (h2 : 2 ≤ cs.length)
    (hv : ∀ c ∈ cs, RealVersion c.2) :
    parseVersionConstraints (listText cs) = some (.multiple (cs.map fun c => c.1.constraint c.2)) := by
  have hs : splitChar ',' (listText cs) = cs.map ropText := by
    unfold listText
    refine splitChar_join ?_ ?_
    · intro he; simp at he; rw [he] at h2; simp at h2
    · intro p hp
      rw [List.mem_map] at hp
      obtain ⟨c, hc, rfl⟩ := hp
      exact ropText_not_mem (hv c hc) (by decide) (by decide) (by decide)
  unfold parseVersionConstraints
  rw [hs]
  obtain ⟨a, b, rest, rfl⟩ : ∃ a b rest, cs = a :: b :: rest := by
    match cs, h2 with
    | a :: b :: rest, _ => exact ⟨a, b, rest, rfl⟩
  have := mapM_some_map (f := fun p => parseSingleConstraint (trim p)) (g := ropText)
    (k := fun c => c.1.constraint c.2) (l := a :: b :: rest) (by
      intro c hc
      show parseSingleConstraint (trim (ropText c)) = _
      rw [trim_of_noWs (ropText_noWs (hv c hc))]
      exact parseSingleConstraint_text (hv c hc))
  simp only [List.map_cons] at this ⊢
  rw [this]; rfl

theorem body_list {name : Str} (hn : PkgName name) {cs : List (ROp × Version)} (h2 : 2 ≤ cs.length)
    (hv : ∀ c ∈ cs, RealVersion c.2) :
    Body (name ++ listText cs) name (some (.multiple (cs.map fun c => c.1.constraint c.2))) := by
  obtain ⟨a, b, rest, rfl⟩ : ∃ a b rest, cs = a :: b :: rest := by
    match cs, h2 with
    | a :: b :: rest, _ => exact ⟨a, b, rest, rfl⟩
  have ha := hv a (by simp)
  have hl : listText (a :: b :: rest) = a.1.text ++ (a.2.asStr ++ c!"," ++ listText (b :: rest)) := by
    simp only [listText, List.map_cons, joinWith_two, ropText, List.append_assoc]
  have nm : ∀ d, nameChar d = false → d ≠ '+' → d ∉ c!"=><~," → d ∉ listText (a :: b :: rest) := by
    intro d h1 h2 h3 hm
    rcases mem_joinWith hm with hm | ⟨p, hp, hm⟩
    · simp at hm; subst hm; simp at h3
    · rw [List.mem_map] at hp
      obtain ⟨c, hc, rfl⟩ := hp
      refine ropText_not_mem (hv c hc) h1 h2 ?_ hm
      intro h4; exact h3 (List.mem_append_left c!"," h4)
  have nm' : ∀ d, nameChar d = false → d ≠ '+' → d ∉ c!"=><~," → d ∉ name ++ listText (a :: b :: rest) := by
    intro d h1 h2 h3 hm
    rcases List.mem_append.mp hm with hm | hm
    · exact PkgName.not_mem hn h1 hm
    · exact nm d h1 h2 h3 hm
  obtain ⟨x, xs, hx, hx1, hx2, hx3, hx4⟩ := ROp.text_head a.1
  have hhead : ∀ c, (listText (a :: b :: rest)).head? = some c → c = x := by
    intro c hc; rw [hl, hx] at hc; simp at hc; exact hc.symm
  have hrun := takeWhile_run (p := nameChar) (a := name) (r := listText (a :: b :: rest)) (PkgName.all hn)
    (by intro c hc; rw [hhead c hc]; exact hx1)
  refine ⟨?_, ?_, ?_, ?_, ?_⟩
  · unfold parseNameVersion
    rw [matchWildcard_noStar (nm' '*' (by decide) (by decide) (by decide))]
    have hb : matchBasic (name ++ listText (a :: b :: rest)) =
        some (name, a.1.text, a.2.asStr ++ c!"," ++ listText (b :: rest)) := by
      unfold matchBasic
      rw [hrun.1, hrun.2, hl, splitOp_text a.1]
      · simp [hn.1]
      · simp [ha.2]
      · have := nm '\n' (by decide) (by decide) (by decide)
        rw [hl, List.mem_append, not_or] at this
        exact this.2
      · intro he
        refine RealVersion.head ha ?_
        obtain ⟨y, ys, hy⟩ := List.exists_cons_of_ne_nil ha.2
        rw [hy] at he ⊢; simpa using he
    rw [hb]
    have hc : (name ++ listText (a :: b :: rest)).contains ',' = true := by
      rw [hl]; simp
    simp only [hc, if_true, List.drop_left, parseVersionConstraints_list h2 hv]
    rfl
  · exact name_head hn
  · intro y hy
    have hne : listText (a :: b :: rest) ≠ [] := by rw [hl, hx]; simp
    rw [getLast?_append_ne hne] at hy
    obtain ⟨p, hp, hpl⟩ := joinWith_last (by simp) (by
      intro p hp; rw [List.mem_map] at hp; obtain ⟨c, _, rfl⟩ := hp; exact ropText_ne_nil c) hy
    rw [List.mem_map] at hp
    obtain ⟨c, hc, rfl⟩ := hp
    exact ropText_noWs (hv c hc) y (List.mem_of_mem_getLast? hpl)
  · intro d hd
    simp at hd
    rcases hd with rfl | rfl <;> exact nm' _ (by decide) (by decide) (by decide)
  · refine ⟨name, _, rfl, PkgName.all hn, ?_⟩
    intro c hc; rw [hhead c hc]; exact ⟨hx1, hx2⟩


theorem matchBasic_none {a r : Str} (ha : ∀ c ∈ a, nameChar c = true)
    (hr : ∀ c, r.head? = some c → nameChar c = false ∧ c ∉ c!"=><~") : matchBasic (a ++ r) = none := by
  have hrun := takeWhile_run ha (fun c hc => (hr c hc).1)
  unfold matchBasic
  rw [hrun.1, hrun.2]
  have : splitOp r = none := by
    cases r with
    | nil => rfl
    | cons c r =>
      have := (hr c rfl).2
      simp at this
      simp [splitOp, List.findSome?, List.isPrefixOf, Ne.symm this.1, Ne.symm this.2.1, Ne.symm this.2.2.1,
        Ne.symm this.2.2.2]
  rw [this]; simp

theorem parsePlusForm_none {s : Str} (h : s.getLast? ≠ some '+') : parsePlusForm s = none := by
  unfold parsePlusForm
  have : (s.getLast? != some '+') = true := by simpa using h
  rw [if_pos this]

/-- the longest run of name characters of a text with few kinds of characters -/
theorem nameRun (s : Str) : ∃ a r, s = a ++ r ∧ (∀ c ∈ a, nameChar c = true) ∧
    (∀ c, r.head? = some c → nameChar c = false ∧ c ∈ s) := by
  induction s with
  | nil => exact ⟨[], [], rfl, by simp, by simp⟩
  | cons c s ih =>
    cases hc : nameChar c with
    | true =>
      obtain ⟨a, r, rfl, h1, h2⟩ := ih
      refine ⟨c :: a, r, rfl, ?_, ?_⟩
      · intro d hd; rcases List.mem_cons.mp hd with rfl | hd
        · exact hc
        · exact h1 d hd
      · intro d hd; exact ⟨(h2 d hd).1, List.mem_cons_of_mem _ (h2 d hd).2⟩
    | false =>
      refine ⟨[], c :: s, rfl, by simp, ?_⟩
      intro d hd; simp at hd; subst hd; exact ⟨hc, by simp⟩

/-- a text whose first non-name character is not an operator has no operator form -/
theorem noOpForm {s : Str} (h : ∀ c ∈ s, nameChar c = true ∨ c = '+') : matchWildcard s = none ∧ matchBasic s = none := by
  obtain ⟨a, r, rfl, h1, h2⟩ := nameRun s
  constructor
  · refine matchWildcard_noStar fun hm => ?_
    rcases h _ hm with h | h <;> revert h <;> decide
  · refine matchBasic_none h1 fun c hc => ⟨(h2 c hc).1, ?_⟩
    rcases h c (h2 c hc).2 with h | h
    · rw [(h2 c hc).1] at h; cases h
    · subst h; decide

theorem printed_nameOrPlus {s : Str} (h : Printed s) : ∀ c ∈ s, nameChar c = true ∨ c = '+' := by
  intro c hc
  rcases h.chars c hc with h | rfl | rfl | rfl
  · left; simp [nameChar, h]
  · left; decide
  · left; decide
  · right; rfl

theorem body_noColon {s : Str} (h : ':' ∉ s) : ∃ a r, s = a ++ r ∧ (∀ c ∈ a, nameChar c = true) ∧
    (∀ c, r.head? = some c → nameChar c = false ∧ c ≠ ':') := by
  obtain ⟨a, r, rfl, h1, h2⟩ := nameRun s
  refine ⟨a, r, rfl, h1, fun c hc => ⟨(h2 c hc).1, ?_⟩⟩
  rintro rfl; exact h (h2 _ hc).2

theorem body_none {name : Str} (hn : PkgName name) (hd : '-' ∉ name) : Body name name none := by
  have hall := PkgName.all hn
  have nf := noOpForm (s := name) (fun c hc => .inl (hall c hc))
  refine ⟨?_, ?_, ?_, ?_, ?_⟩
  · unfold parseNameVersion
    rw [nf.1, nf.2, parsePlusForm_none]
    · simp [parseDashForm, splitOnce_absent hd]
    · intro he; exact nameChar_ne (hall _ (List.mem_of_mem_getLast? he)) (by decide) rfl
  · have := name_head (r := []) hn; rwa [List.append_nil] at this
  · intro x hx; exact nameChar_noWs (hall x (List.mem_of_mem_getLast? hx))
  · intro d hd; simp at hd
    rcases hd with rfl | rfl <;> exact PkgName.not_mem hn (by decide)
  · exact body_noColon (PkgName.not_mem hn (by decide))

theorem trimEndPlus_printed {s : Str} (h : Printed s) (n : Nat) : trimEndPlus (s ++ List.replicate n '+') = s := by
  unfold trimEndPlus
  rw [List.reverse_append, List.reverse_replicate]
  have h1 : ∀ l : Str, (List.replicate n '+' ++ l).dropWhile (· == '+') = l.dropWhile (· == '+') := by
    intro l
    induction n with
    | zero => rfl
    | succ n ih => simp [List.replicate_succ, ih]
  rw [h1]
  have h2 : s.reverse.dropWhile (· == '+') = s.reverse := by
    cases hr : s.reverse with
    | nil => rfl
    | cons c r =>
      have hl : s.getLast? = some c := by rw [← List.head?_reverse, hr]; rfl
      have := h.last c hl
      have hc : (c == '+') = false := by
        rw [beq_eq_false_iff_ne]; exact isTok_ne this (by decide)
      simp [hc]
  rw [h2, List.reverse_reverse]

theorem body_prefix {name : Str} (hn : PkgName name) (hd : '-' ∉ name) {v : Version} (hv : Parsed v) :
    Body (name ++ c!"-" ++ v.asStr) name (some (.prefixOf v)) := by
  have hp := Printed.of_parsed hv
  have hall : ∀ c ∈ name ++ c!"-" ++ v.asStr, nameChar c = true ∨ c = '+' := by
    intro c hc
    simp only [List.mem_append, List.mem_singleton] at hc
    rcases hc with (hc | rfl) | hc
    · exact .inl (PkgName.all hn c hc)
    · left; decide
    · exact printed_nameOrPlus hp c hc
  have nf := noOpForm hall
  have nm : ∀ d, nameChar d = false → d ≠ '+' → d ∉ name ++ c!"-" ++ v.asStr := by
    intro d h1 h2 hm
    rcases hall d hm with h | h
    · rw [h1] at h; cases h
    · exact h2 h
  have hlast : ∀ x, (name ++ c!"-" ++ v.asStr).getLast? = some x → nameChar x = true := by
    intro x hx
    by_cases hne : v.asStr = []
    · rw [hne, List.append_nil, List.getLast?_append] at hx; simp at hx; subst hx; decide
    · rw [getLast?_append_ne hne] at hx
      have := hp.last x hx
      simp [nameChar, this]
  refine ⟨?_, ?_, ?_, ?_, ?_⟩
  · unfold parseNameVersion
    rw [nf.1, nf.2, parsePlusForm_none]
    · have h1 : splitOnce c!"-" (name ++ c!"-" ++ v.asStr) = some (name, v.asStr) := splitOnce_head hd
      have h2 : parseRezSpec v.asStr = some (.prefixOf v) := by
        unfold parseRezSpec specDots
        rw [splitOnce_none hp.noDots, splitOnce_absent (RealVersion.not_mem hv (by decide) (by decide))]
        have h3 := trimEndPlus_printed hp 0
        simp only [List.replicate_zero, List.append_nil] at h3
        have h4 : (v.asStr.getLast? == some '+') = false := by
          rw [beq_eq_false_iff_ne]
          intro he
          exact isTok_ne (hp.last _ he) (by decide) rfl
        simp [h3, RealVersion.parse hv, h4]
      simp only [parseDashForm, h1, h2, Option.bind_eq_bind, Option.bind_some]; rfl
    · intro he; exact nameChar_ne (hlast _ he) (by decide) rfl
  · rw [List.append_assoc]; exact name_head hn
  · intro x hx; exact nameChar_noWs (hlast x hx)
  · intro d hd; simp at hd
    rcases hd with rfl | rfl <;> exact nm _ (by decide) (by decide)
  · exact body_noColon (nm _ (by decide) (by decide))

theorem body_plus {name : Str} (hn : PkgName name) {v : Version} (hv : Parsed v) (hdv : '-' ∉ v.asStr) :
    Body (name ++ c!"-" ++ v.asStr ++ c!"+") name (some (.greaterThanOrEqual v)) := by
  have hp := Printed.of_parsed hv
  have hall : ∀ c ∈ name ++ c!"-" ++ v.asStr ++ c!"+", nameChar c = true ∨ c = '+' := by
    intro c hc
    simp only [List.mem_append, List.mem_singleton] at hc
    rcases hc with ((hc | rfl) | hc) | rfl
    · exact .inl (PkgName.all hn c hc)
    · left; decide
    · exact printed_nameOrPlus hp c hc
    · right; rfl
  have nf := noOpForm hall
  have nm : ∀ d, nameChar d = false → d ≠ '+' → d ∉ name ++ c!"-" ++ v.asStr ++ c!"+" := by
    intro d h1 h2 hm
    rcases hall d hm with h | h
    · rw [h1] at h; cases h
    · exact h2 h
  have hlast : (name ++ c!"-" ++ v.asStr ++ c!"+").getLast? = some '+' := by
    rw [getLast?_append_ne (by simp)]; rfl
  refine ⟨?_, ?_, ?_, ?_, ?_⟩
  · unfold parseNameVersion
    rw [nf.1, nf.2]
    have h1 : parsePlusForm (name ++ c!"-" ++ v.asStr ++ c!"+") = some (name, some (.greaterThanOrEqual v)) := by
      unfold parsePlusForm
      have h2 : (name ++ c!"-" ++ v.asStr ++ c!"+").dropLast = name ++ '-' :: v.asStr := by
        rw [List.dropLast_concat]; simp
      rw [hlast, if_neg (by simp), h2, rsplitOnce_append name hdv]
      simp [RealVersion.parse hv]
    rw [h1]
  · rw [List.append_assoc, List.append_assoc]; exact name_head hn
  · rw [hlast]; intro x hx; simp at hx; subst hx; decide
  · intro d hd; simp at hd
    rcases hd with rfl | rfl <;> exact nm _ (by decide) (by decide)
  · exact body_noColon (nm _ (by decide) (by decide))

theorem body_plusUpper {name : Str} (hn : PkgName name) (hd : '-' ∉ name) {v w : Version} (hv : Parsed v)
    (hw : RealVersion w) (incl : Bool) :
    Body (name ++ c!"-" ++ v.asStr ++ c!"+<" ++ (if incl then c!"=" else []) ++ w.asStr) name
      (some (.multiple [.greaterThanOrEqual v, if incl then .lessThanOrEqual w else .lessThan w])) := by
  have hp := Printed.of_parsed hv
  have hpw := Printed.of_parsed hw.1
  obtain ⟨u, hu⟩ : ∃ u : Str, u = (if incl then c!"=" else []) ++ w.asStr := ⟨_, rfl⟩
  have hbody : name ++ c!"-" ++ v.asStr ++ c!"+<" ++ (if incl then c!"=" else []) ++ w.asStr =
      name ++ c!"-" ++ (v.asStr ++ c!"+" ++ c!"<" ++ u) := by
    rw [hu]; simp
  have hup : ∀ c ∈ u, c = '=' ∨ nameChar c = true ∨ c = '+' := by
    intro c hc
    rw [hu, List.mem_append] at hc
    rcases hc with hc | hc
    · left; cases incl <;> simp at hc; exact hc
    · right; exact printed_nameOrPlus hpw c hc
  have hall : ∀ c ∈ name ++ c!"-" ++ (v.asStr ++ c!"+" ++ c!"<" ++ u),
      c = '<' ∨ c = '=' ∨ nameChar c = true ∨ c = '+' := by
    intro c hc
    simp only [List.mem_append, List.mem_singleton] at hc
    rcases hc with (hc | rfl) | (((hc | rfl) | rfl) | hc)
    · exact .inr (.inr (.inl (PkgName.all hn c hc)))
    · exact .inr (.inr (.inl (by decide)))
    · exact .inr (.inr (printed_nameOrPlus hp c hc))
    · exact .inr (.inr (.inr rfl))
    · exact .inl rfl
    · exact .inr (hup c hc)
  have nm : ∀ d, nameChar d = false → d ≠ '+' → d ≠ '<' → d ≠ '=' →
      d ∉ name ++ c!"-" ++ (v.asStr ++ c!"+" ++ c!"<" ++ u) := by
    intro d h1 h2 h3 h4 hm
    rcases hall d hm with h | h | h | h
    · exact h3 h
    · exact h4 h
    · rw [h1] at h; cases h
    · exact h2 h
  have hune : u ≠ [] := by rw [hu]; simp [hw.2]
  have hlast : ∀ x, (name ++ c!"-" ++ (v.asStr ++ c!"+" ++ c!"<" ++ u)).getLast? = some x → isTok x = true := by
    intro x hx
    rw [getLast?_append_ne (by simp), getLast?_append_ne hune, hu, getLast?_append_ne hw.2] at hx
    exact hpw.last x hx
  rw [hbody]
  refine ⟨?_, ?_, ?_, ?_, ?_⟩
  · unfold parseNameVersion
    rw [matchWildcard_noStar (nm _ (by decide) (by decide) (by decide) (by decide))]
    have hb : matchBasic (name ++ c!"-" ++ (v.asStr ++ c!"+" ++ c!"<" ++ u)) = none := by
      obtain ⟨a, r, ha, h1, h2⟩ := nameRun v.asStr
      have : name ++ c!"-" ++ (v.asStr ++ c!"+" ++ c!"<" ++ u) = (name ++ c!"-" ++ a) ++ (r ++ c!"+" ++ c!"<" ++ u) := by
        rw [ha]; simp
      rw [this]
      refine matchBasic_none ?_ ?_
      · intro c hc
        simp only [List.mem_append, List.mem_singleton] at hc
        rcases hc with (hc | rfl) | hc
        · exact PkgName.all hn c hc
        · decide
        · exact h1 c hc
      · intro c hc
        cases r with
        | nil => simp at hc; subst hc; decide
        | cons d r =>
          simp at hc; subst hc
          refine ⟨(h2 d rfl).1, ?_⟩
          rcases printed_nameOrPlus hp d (h2 d rfl).2 with h | h
          · rw [(h2 d rfl).1] at h; cases h
          · subst h; decide
    rw [hb, parsePlusForm_none]
    · have h1 : splitOnce c!"-" (name ++ c!"-" ++ (v.asStr ++ c!"+" ++ c!"<" ++ u)) =
          some (name, v.asStr ++ c!"+" ++ c!"<" ++ u) := splitOnce_head hd
      have h2 : parseRezSpec (v.asStr ++ c!"+" ++ c!"<" ++ u) =
          some (.multiple [.greaterThanOrEqual v, if incl then .lessThanOrEqual w else .lessThan w]) := by
        have nd : containsStr (v.asStr ++ c!"+" ++ c!"<" ++ u) c!".." = false := by
          have e1 : containsStr u c!".." = false := by
            rw [hu]; cases incl
            · exact hpw.noDots
            · simp only [if_true, List.cons_append, List.nil_append]
              rw [containsDots_of_ne _ _ (by decide)]; exact hpw.noDots
          have : v.asStr ++ c!"+" ++ c!"<" ++ u = v.asStr ++ ('+' :: '<' :: u) := by simp
          rw [this, containsDots_append (by simp), hp.noDots, containsDots_of_ne _ _ (by decide),
            containsDots_of_ne _ _ (by decide), e1]; rfl
        have sl : splitOnce c!"<" (v.asStr ++ c!"+" ++ c!"<" ++ u) = some (v.asStr ++ c!"+", u) := by
          refine splitOnce_head ?_
          rw [List.mem_append, not_or]
          exact ⟨RealVersion.not_mem hv (by decide) (by decide), by decide⟩
        have tp : trimEndPlus (v.asStr ++ c!"+") = v.asStr := trimEndPlus_printed hp 1
        have su : specUpper ('<' :: u) = some (if incl then .lessThanOrEqual w else .lessThan w) := by
          rw [hu]
          cases incl
          · simp only [Bool.false_eq_true, if_false, List.nil_append]
            obtain ⟨y, ys, hy⟩ := List.exists_cons_of_ne_nil hw.2
            have hye : y ≠ '=' := by
              rintro rfl; exact RealVersion.head hw (by rw [hy]; rfl)
            have hpar := parse_asStr hw.1
            rw [hy] at hpar ⊢
            unfold specUpper
            split
            · rename_i s he; simp at he; exact absurd he.1 hye
            · rename_i s he
              simp at he; rw [← he.2, hpar]; rfl
            · rename_i he; cases he
          · simp only [if_true, List.cons_append, List.nil_append, specUpper, parse_asStr hw.1]; rfl
        unfold parseRezSpec specDots
        rw [splitOnce_none nd, sl]
        simp only [tp, RealVersion.parse hv, su]
        rfl
      simp only [parseDashForm, h1, h2, Option.bind_eq_bind, Option.bind_some]; rfl
    · intro he; exact isTok_ne (hlast _ he) (by decide) rfl
  · rw [List.append_assoc]; exact name_head hn
  · intro x hx; exact isTok_not_ws (hlast x hx)
  · intro d hd; simp at hd
    rcases hd with rfl | rfl <;> exact nm _ (by decide) (by decide) (by decide) (by decide)
  · exact body_noColon (nm _ (by decide) (by decide) (by decide) (by decide))

theorem body_wildcard {name : Str} (hn : PkgName name) {c : Char} {p : Str} (hs : '*' ∈ p)
    (hf : Free c!"\n[" (c :: p)) (hl : ∀ d, p.getLast? = some d → isWs d = false) :
    Body (name ++ c!"==" ++ (c :: p)) name (some (.wildcard (c :: p))) := by
  have hpne : p ≠ [] := by rintro rfl; cases hs
  have hrun := takeWhile_run (p := nameChar) (a := name) (r := '=' :: '=' :: c :: p) (PkgName.all hn)
    (by intro d hd; simp at hd; subst hd; decide)
  have hb : name ++ c!"==" ++ (c :: p) = name ++ ('=' :: '=' :: c :: p) := by simp
  rw [hb]
  refine ⟨?_, ?_, ?_, ?_, ?_⟩
  · unfold parseNameVersion
    have : matchWildcard (name ++ ('=' :: '=' :: c :: p)) = some (name, c :: p) := by
      unfold matchWildcard
      rw [hrun.1, hrun.2]
      have h1 : p.contains '*' = true := by simpa using hs
      have h2 : (c :: p).contains '\n' = false := by simpa using hf '\n' (by simp)
      simp only [h1, h2]
      simp [hn.1]
    rw [this]
  · exact name_head hn
  · intro x hx
    rw [getLast?_append_ne (by simp)] at hx
    have e : '=' :: '=' :: c :: p = ['=', '=', c] ++ p := rfl
    rw [e, getLast?_append_ne hpne] at hx
    exact hl x hx
  · intro d hd hm
    have hm' := hf d hd
    rw [List.mem_append, List.mem_cons, List.mem_cons] at hm
    simp at hd
    rcases hm with hm | rfl | rfl | hm
    · refine PkgName.not_mem hn ?_ hm
      rcases hd with rfl | rfl <;> decide
    · simp at hd
    · simp at hd
    · exact hm' hm
  · refine ⟨name, _, rfl, PkgName.all hn, ?_⟩
    intro d hd; simp at hd; subst hd; decide

theorem body_writable {name : Str} (hn : PkgName name) {c : Option VersionConstraint} (h : Writable name c) :
    Body (name ++ c.elim [] VersionConstraint.display) name c := by
  cases h with
  | none hd => simpa using body_none hn hd
  | op o v hv => simp only [Option.elim, display_op]; rw [← List.append_assoc]; exact body_op hn o hv
  | list cs h2 hv =>
    have : ∀ l : List (ROp × Version), VersionConstraint.displayAll (l.map fun c => c.1.constraint c.2) = l.map ropText := by
      intro l
      induction l with
      | nil => rfl
      | cons c l ih => simp [VersionConstraint.displayAll, ih, display_op, ropText]
    simp only [Option.elim, VersionConstraint.display, this]
    exact body_list hn h2 hv
  | prefixOf v hd hv => simp only [Option.elim, VersionConstraint.display]; rw [← List.append_assoc]; exact body_prefix hn hd hv
  | wildcard c p hs hf hl => simp only [Option.elim, VersionConstraint.display]; rw [← List.append_assoc]; exact body_wildcard hn hs hf hl

/-! ### conditions -/

theorem parsePlatform_display {c : PlatformCondition} (h : WritablePlatform c) :
    parsePlatformCondition c.display = some c := by
  obtain ⟨p, a, n⟩ := c
  have ha : a = none := h.arch
  subst ha
  have hq : '\'' ∉ p := h.platform _ (by simp)
  have he : '=' ∉ p := h.platform _ (by simp)
  have hne : containsStr (p ++ c!"'") c!"!=" = false := containsNe_noEq (by simp [he])
  have s2 : splitOnce c!"'" (p ++ c!"'" ++ []) = some (p, []) := splitOnce_head hq
  cases n
  · have hd : PlatformCondition.display ⟨p, none, false⟩ = c!"platform==" ++ c!"'" ++ (p ++ c!"'" ++ []) := by
      simp [PlatformCondition.display]
    have s1 : splitOnce c!"'" (c!"platform==" ++ c!"'" ++ (p ++ c!"'" ++ [])) = some (c!"platform==", p ++ c!"'" ++ []) :=
      splitOnce_head (by decide)
    have hc : containsStr (c!"platform==" ++ c!"'" ++ (p ++ c!"'" ++ [])) c!"!=" = false := by
      rw [containsNe_skip (by decide), List.append_nil]; exact hne
    unfold parsePlatformCondition
    rw [hd, s1]
    simp only [Option.bind_eq_bind, Option.bind_some, s2, archOf_none, hc]; rfl
  · have hd : PlatformCondition.display ⟨p, none, true⟩ = c!"platform!=" ++ c!"'" ++ (p ++ c!"'" ++ []) := by
      simp [PlatformCondition.display]
    have s1 : splitOnce c!"'" (c!"platform!=" ++ c!"'" ++ (p ++ c!"'" ++ [])) = some (c!"platform!=", p ++ c!"'" ++ []) :=
      splitOnce_head (by decide)
    have hc : containsStr (c!"platform!=" ++ c!"'" ++ (p ++ c!"'" ++ [])) c!"!=" = true := by
      simp [containsStr, List.isPrefixOf]
    unfold parsePlatformCondition
    rw [hd, s1]
    simp only [Option.bind_eq_bind, Option.bind_some, s2, archOf_none, hc]; rfl

theorem parseEnv_display {c : EnvCondition} (h : WritableEnv c) : parseEnvCondition c.display = some c := by
  obtain ⟨n, e, neg⟩ := c
  have hn1 : '=' ∉ n := h.varName _ (by simp)
  have hn2 : '!' ∉ n := h.varName _ (by simp)
  cases e with
  | none =>
    have hneg : neg = false := h.exists_ rfl
    subst hneg
    unfold parseEnvCondition
    have h1 : containsStr (c!"env." ++ n) c!"!=" = false := containsNe_noEq (by simp [hn1])
    have h2 : (c!"env." ++ n).drop 4 = n := rfl
    have h3 : splitOnce c!"==" n = none := splitOnce_absent hn1
    have h4 : splitOnce c!"!=" n = none := splitOnce_absent hn2
    simp only [EnvCondition.display, h1, h2, h3, h4]; rfl
  | some v =>
    have hv := h.value v rfl
    have hq : '\'' ∉ v := hv _ (by simp)
    have he : '=' ∉ v := hv _ (by simp)
    have hval : envValue (c!"'" ++ v ++ c!"'") = some (some v) := by
      unfold envValue
      have t : (trim (c!"'" ++ v ++ c!"'") == c!"None") = false := by
        rw [beq_eq_false_iff_ne]
        intro hc
        have := mem_trim_of_mem (s := c!"'" ++ v ++ c!"'") (c := '\'') (by simp) (by decide)
        rw [hc] at this; revert this; decide
      have s1 : splitOnce c!"'" (c!"'" ++ v ++ c!"'") = some ([], v ++ c!"'") := by
        have := splitOnce_head (p := '\'') (ps := []) (a := []) (r := v ++ c!"'") (by simp)
        simpa using this
      have s2 : splitOnce c!"'" (v ++ c!"'") = some (v, []) := by
        have := splitOnce_head (p := '\'') (ps := []) (a := v) (r := []) hq
        simpa using this
      simp only [t, Bool.false_eq_true, if_false, s1, s2]; rfl
    have hne : '=' ∉ c!"'" ++ v ++ c!"'" := by simp [he]
    obtain ⟨q, hqe⟩ : ∃ q : Str, q = c!"'" ++ v ++ c!"'" := ⟨_, rfl⟩
    rw [← hqe] at hval hne
    cases neg
    · have hd : EnvCondition.display ⟨n, some v, false⟩ = c!"env." ++ (n ++ c!"==" ++ q) := by
        simp [EnvCondition.display, hqe]
      unfold parseEnvCondition
      have h1 : containsStr (c!"env." ++ (n ++ c!"==" ++ q)) c!"!=" = false := by
        rw [containsNe_skip (by decide), List.append_assoc, containsNe_skip hn2, containsNe_skip (by decide)]
        exact containsNe_noEq hne
      have h3 : splitOnce c!"==" (n ++ c!"==" ++ q) = some (n, q) := splitOnce_head hn1
      have h2 : (c!"env." ++ (n ++ c!"==" ++ q)).drop 4 = n ++ c!"==" ++ q := rfl
      simp only [hd, h1, h2, h3, Option.or_some, Option.some_or, hval]; rfl
    · have hd : EnvCondition.display ⟨n, some v, true⟩ = c!"env." ++ (n ++ c!"!=" ++ q) := by
        simp [EnvCondition.display, hqe]
      unfold parseEnvCondition
      have h1 : containsStr (c!"env." ++ (n ++ c!"!=" ++ q)) c!"!=" = true := by
        rw [containsNe_skip (by decide), List.append_assoc, containsNe_skip hn2]
        simp [containsStr, List.isPrefixOf]
      have h3 : splitOnce c!"==" (n ++ c!"!=" ++ q) = none := by
        rw [List.append_assoc, splitOnce_skip hn1]
        have hh : ∀ x xs, q = x :: xs → x ≠ '=' := by
          intro x xs hx hxe; subst hxe; rw [hx] at hne; simp at hne
        have : splitOnce c!"==" (c!"!=" ++ q) = none := by
          have a1 : splitOnce c!"==" q = none := splitOnce_absent hne
          cases q with
          | nil => rfl
          | cons x xs =>
            have := hh x xs rfl
            simp [splitOnce, List.isPrefixOf, Ne.symm this] at a1 ⊢
            exact a1
        rw [this]; rfl
      have h4 : splitOnce c!"!=" (n ++ c!"!=" ++ q) = some (n, q) := splitOnce_head hn2
      have h2 : (c!"env." ++ (n ++ c!"!=" ++ q)).drop 4 = n ++ c!"!=" ++ q := rfl
      simp only [hd, h1, h2, h3, h4, Option.none_or, hval]; rfl

theorem platform_display_free {c : PlatformCondition} (h : WritablePlatform c) : Free c!"]\n" c.display := by
  intro d hd hm
  have hp : d ∉ c.platform := h.platform d (by simp at hd ⊢; rcases hd with rfl | rfl <;> simp)
  unfold PlatformCondition.display at hm
  rw [h.arch] at hm
  have h1 : d ∉ c!"platform" ∧ d ∉ c!"!=" ∧ d ∉ c!"==" ∧ d ∉ c!"'" := by
    simp at hd; rcases hd with rfl | rfl <;> decide
  simp only [List.mem_append, List.not_mem_nil, or_false] at hm
  rcases hm with (((hm | hm) | hm) | hm) | hm
  · exact h1.1 hm
  · split at hm
    · exact h1.2.1 hm
    · exact h1.2.2.1 hm
  · exact h1.2.2.2 hm
  · exact hp hm
  · exact h1.2.2.2 hm

theorem env_display_free {c : EnvCondition} (h : WritableEnv c) : Free c!"]\n" c.display := by
  intro d hd hm
  have hn : d ∉ c.varName := h.varName d (by simp at hd ⊢; rcases hd with rfl | rfl <;> simp)
  have h1 : d ∉ c!"env." ∧ d ∉ c!"!=" ∧ d ∉ c!"==" ∧ d ∉ c!"'" := by
    simp at hd; rcases hd with rfl | rfl <;> decide
  unfold EnvCondition.display at hm
  cases he : c.expected with
  | none =>
    simp only [he, List.mem_append] at hm
    rcases hm with hm | hm
    · exact h1.1 hm
    · exact hn hm
  | some v =>
    have hv : d ∉ v := h.value v he d (by simp at hd ⊢; rcases hd with rfl | rfl <;> simp)
    simp only [he, List.mem_append] at hm
    rcases hm with ((((hm | hm) | hm) | hm) | hm) | hm
    · exact h1.1 hm
    · exact hn hm
    · split at hm
      · exact h1.2.1 hm
      · exact h1.2.2.1 hm
    · exact h1.2.2.2 hm
    · exact hv hm
    · exact h1.2.2.2 hm

theorem platform_prefix (c : PlatformCondition) : c!"platform".isPrefixOf c.display = true := by
  unfold PlatformCondition.display
  simp [List.isPrefixOf]

theorem env_prefix (c : EnvCondition) :
    c!"platform".isPrefixOf c.display = false ∧ c!"env.".isPrefixOf c.display = true := by
  unfold EnvCondition.display
  split <;> simp [List.isPrefixOf]

/-- the conditions of a requirement as text -/
def condText (ps : List PlatformCondition) (es : List EnvCondition) : Str :=
  (ps.flatMap fun c => bracket c.display) ++ (es.flatMap fun c => bracket c.display)

theorem parseConditions_envs (es : List EnvCondition) (h : ∀ c ∈ es, WritableEnv c) (pre before : Str)
    (hpre : '[' ∉ pre) (fuel : Nat) (hf : es.length + 1 ≤ fuel) (P : List PlatformCondition) (E : List EnvCondition) :
    parseConditions fuel before (pre ++ condText [] es) P E = some (before ++ pre, P, E ++ es) := by
  induction es generalizing pre before fuel E with
  | nil =>
    obtain ⟨f, rfl⟩ : ∃ f, fuel = f + 1 := ⟨fuel - 1, by omega⟩
    simp only [condText, List.flatMap_nil, List.append_nil, parseConditions]
    rw [splitOnce_absent hpre]
  | cons c es ih =>
    obtain ⟨f, rfl⟩ : ∃ f, fuel = f + 1 := ⟨fuel - 1, by omega⟩
    have hc := h c (by simp)
    have e : pre ++ condText [] (c :: es) = pre ++ c!"[" ++ (c.display ++ c!"]" ++ condText [] es) := by
      simp [condText, bracket]
    have s1 : splitOnce c!"[" (pre ++ c!"[" ++ (c.display ++ c!"]" ++ condText [] es)) =
        some (pre, c.display ++ c!"]" ++ condText [] es) := splitOnce_head hpre
    have s2 : splitOnce c!"]" (c.display ++ c!"]" ++ condText [] es) = some (c.display, condText [] es) :=
      splitOnce_head (env_display_free hc _ (by simp))
    rw [e]
    simp only [parseConditions, s1, s2, (env_prefix c).1, (env_prefix c).2, parseEnv_display hc, if_true,
      Bool.false_eq_true, if_false]
    have := ih (fun c hc => h c (by simp [hc])) [] (before ++ pre) (by simp) f (by simp at hf; omega) (E ++ [c])
    simp only [List.nil_append, List.append_nil, List.append_assoc, List.cons_append] at this ⊢
    exact this

theorem parseConditions_all (ps : List PlatformCondition) (hp : ∀ c ∈ ps, WritablePlatform c)
    (es : List EnvCondition) (he : ∀ c ∈ es, WritableEnv c) (pre before : Str)
    (hpre : '[' ∉ pre) (fuel : Nat) (hf : ps.length + es.length + 1 ≤ fuel) (P : List PlatformCondition) :
    parseConditions fuel before (pre ++ condText ps es) P [] = some (before ++ pre, P ++ ps, es) := by
  induction ps generalizing pre before fuel P with
  | nil =>
    have := parseConditions_envs es he pre before hpre fuel (by simp at hf; omega) P []
    simpa using this
  | cons c ps ih =>
    obtain ⟨f, rfl⟩ : ∃ f, fuel = f + 1 := ⟨fuel - 1, by omega⟩
    have hc := hp c (by simp)
    have e : pre ++ condText (c :: ps) es = pre ++ c!"[" ++ (c.display ++ c!"]" ++ condText ps es) := by
      simp [condText, bracket]
    have s1 : splitOnce c!"[" (pre ++ c!"[" ++ (c.display ++ c!"]" ++ condText ps es)) =
        some (pre, c.display ++ c!"]" ++ condText ps es) := splitOnce_head hpre
    have s2 : splitOnce c!"]" (c.display ++ c!"]" ++ condText ps es) = some (c.display, condText ps es) :=
      splitOnce_head (platform_display_free hc _ (by simp))
    rw [e]
    simp only [parseConditions, s1, s2, platform_prefix c, parsePlatform_display hc, if_true]
    have := ih (fun c hc => hp c (by simp [hc])) [] (before ++ pre) (by simp) f (by simp at hf; omega) (P ++ [c])
    simp only [List.nil_append, List.append_nil, List.append_assoc, List.cons_append] at this ⊢
    exact this

theorem condText_length (ps : List PlatformCondition) (es : List EnvCondition) :
    ps.length + es.length ≤ (condText ps es).length := by
  have h1 : ∀ l : List PlatformCondition, l.length ≤ (l.flatMap fun c => bracket c.display).length := by
    intro l; induction l with
    | nil => simp
    | cons c l ih => simp [bracket] at ih ⊢; omega
  have h2 : ∀ l : List EnvCondition, l.length ≤ (l.flatMap fun c => bracket c.display).length := by
    intro l; induction l with
    | nil => simp
    | cons c l ih => simp [bracket] at ih ⊢; omega
  simp only [condText, List.length_append]
  have := h1 ps; have := h2 es; omega

theorem condText_newline {ps : List PlatformCondition} {es : List EnvCondition}
    (hp : ∀ c ∈ ps, WritablePlatform c) (he : ∀ c ∈ es, WritableEnv c) : '\n' ∉ condText ps es := by
  intro hm
  simp only [condText, List.mem_append, List.mem_flatMap, bracket, List.mem_singleton] at hm
  rcases hm with ⟨c, hc, (hm | hm) | hm⟩ | ⟨c, hc, (hm | hm) | hm⟩
  · cases hm
  · exact platform_display_free (hp c hc) _ (by simp) hm
  · cases hm
  · cases hm
  · exact env_display_free (he c hc) _ (by simp) hm
  · cases hm

theorem condText_head (ps : List PlatformCondition) (es : List EnvCondition) (c : Char)
    (h : (condText ps es).head? = some c) : c = '[' := by
  cases ps with
  | nil =>
    cases es with
    | nil => cases h
    | cons e es => simp [condText, bracket] at h; exact h.symm
  | cons p ps => simp [condText, bracket] at h; exact h.symm

theorem condText_last (ps : List PlatformCondition) (es : List EnvCondition) (c : Char)
    (h : (condText ps es).getLast? = some c) : c = ']' := by
  have key : ∀ (l : List Str) (c : Char), (l.flatMap bracket).getLast? = some c → c = ']' := by
    intro l
    induction l with
    | nil => intro c h; simp at h
    | cons x l ih =>
      intro c h
      rw [List.flatMap_cons] at h
      by_cases hl : l.flatMap bracket = []
      · rw [hl, List.append_nil] at h
        simp only [bracket] at h
        rw [getLast?_append_ne (by simp)] at h
        simp at h; exact h.symm
      · rw [getLast?_append_ne hl] at h; exact ih c h
  have e : condText ps es = (ps.map PlatformCondition.display ++ es.map EnvCondition.display).flatMap bracket := by
    simp [condText, List.flatMap_append, List.flatMap_map]
  rw [e] at h; exact key _ c h

/-! ### assembly -/

theorem matchNamespace_none {body conds name : Str} {c : Option VersionConstraint} (hb : Body body name c)
    (hc : ∀ x, conds.head? = some x → x = '[') : matchNamespace (body ++ conds) = none := by
  obtain ⟨a, r, rfl, h1, h2⟩ := hb.noColon
  have hr : ∀ x, (r ++ conds).head? = some x → nameChar x = false ∧ x ≠ ':' := by
    intro x hx
    cases r with
    | nil => simp at hx; rw [hc x hx]; decide
    | cons y r => exact h2 x (by simpa using hx)
  have hrun := takeWhile_run h1 (fun x hx => (hr x hx).1)
  unfold matchNamespace
  rw [List.append_assoc, hrun.1, hrun.2]
  split
  · rename_i y rest he
    exact absurd rfl (hr ':' (by rw [he]; rfl)).2
  · rfl

/-- how a namespace is written -/
def nsText (ns : Option Str) : Str := match ns with | some n => n ++ c!"::" | none => []

theorem parse_assemble (f : Flag) (ns : Option Str) (hns : ∀ n, ns = some n → PkgName n) {body name : Str}
    {c : Option VersionConstraint} (hb : Body body name c) (ps : List PlatformCondition)
    (hp : ∀ c ∈ ps, WritablePlatform c) (es : List EnvCondition) (he : ∀ c ∈ es, WritableEnv c) :
    Requirement.parse (f.text ++ nsText ns ++ body ++ condText ps es) =
      some ⟨name, c, f == .weak, f == .conflict, ps, es, ns⟩ := by
  obtain ⟨x, hx, hxn⟩ := hb.head
  obtain ⟨body', rfl⟩ : ∃ b, body = x :: b := by
    cases body with
    | nil => cases hx
    | cons y b => simp at hx; exact ⟨b, by rw [hx]⟩
  obtain ⟨core, hcore⟩ : ∃ core, core = nsText ns ++ (x :: body') ++ condText ps es := ⟨_, rfl⟩
  have hcore_head : ∃ y ys, core = y :: ys ∧ nameChar y = true := by
    rw [hcore]
    cases ns with
    | none => exact ⟨x, _, rfl, hxn⟩
    | some n =>
      obtain ⟨h1, h2⟩ := hns n rfl
      obtain ⟨y, ys, rfl⟩ := List.exists_cons_of_ne_nil h1
      exact ⟨y, _, rfl, nameChar_iff.mpr (h2 y (by simp))⟩
  have hcore_last : ∀ z, core.getLast? = some z → isWs z = false := by
    intro z hz
    rw [hcore] at hz
    by_cases hct : condText ps es = []
    · rw [hct, List.append_nil, getLast?_append_ne (by simp)] at hz
      exact hb.last z hz
    · rw [getLast?_append_ne hct] at hz
      rw [condText_last _ _ _ hz]; decide
  obtain ⟨y, ys, hy, hyn⟩ := hcore_head
  have htrim : trim (f.text ++ core) = f.text ++ core := by
    apply trim_of_trimmed
    constructor
    · intro z hz
      cases f <;> simp [Flag.text, hy] at hz <;> subst hz
      · exact nameChar_noWs hyn
      · decide
      · decide
    · intro z hz
      rw [getLast?_append_ne (by rw [hy]; simp)] at hz
      exact hcore_last z hz
  have hy1 : y ≠ '!' := by rintro rfl; revert hyn; decide
  have hy2 : y ≠ '~' := by rintro rfl; revert hyn; decide
  have hsc : stripConflict (f.text ++ core) = ((if f = .conflict then core else f.text ++ core), f == .conflict) := by
    cases f
    · simp only [Flag.text, List.nil_append, hy, stripConflict]
      split
      · rename_i h; simp at h; exact absurd h.1 hy1
      · rfl
    · rfl
    · rfl
  have hsw : stripWeak (if f = .conflict then core else f.text ++ core) (f == .conflict) = (core, f == .weak) := by
    cases f
    · simp only [Flag.text, List.nil_append, hy, stripWeak]
      have h0 : (Flag.plain == Flag.conflict) = false := rfl
      simp only [h0]
      split
      · rename_i h; cases h
      · split
        · rename_i h; simp at h; exact absurd h.1 hy2
        · rename_i h; rfl
    · rfl
    · rfl
  have hsn : stripNamespace core = ((x :: body') ++ condText ps es, ns) := by
    unfold stripNamespace
    cases ns with
    | none =>
      rw [hcore]
      simp only [nsText, List.nil_append]
      rw [matchNamespace_none hb (condText_head ps es)]
    | some n =>
      have hn := hns n rfl
      have hrun := takeWhile_run (p := nameChar) (a := n) (r := ':' :: ':' :: x :: (body' ++ condText ps es)) (PkgName.all hn)
        (by intro z hz; simp at hz; subst hz; decide)
      have e : core = n ++ (':' :: ':' :: x :: (body' ++ condText ps es)) := by rw [hcore]; simp [nsText]
      have hnl : (body' ++ condText ps es).contains '\n' = false := by
        have a1 := hb.free '\n' (by simp)
        have a2 := condText_newline hp he
        simp only [List.mem_cons, not_or] at a1
        simp [a1.2, a2]
      have : matchNamespace core = some (n, x :: (body' ++ condText ps es)) := by
        unfold matchNamespace
        rw [e, hrun.1, hrun.2]
        simp only [hnl, hxn]
        simp [hn.1]
      rw [this]; rfl
  have hpc : parseConditions (((x :: body') ++ condText ps es).length + 1) [] ((x :: body') ++ condText ps es) [] [] =
      some (x :: body', ps, es) := by
    have := parseConditions_all ps hp es he (x :: body') [] (hb.free '[' (by simp))
      (((x :: body') ++ condText ps es).length + 1) (by
        have := condText_length ps es
        simp only [List.length_append]; omega) []
    simpa using this
  have hin : f.text ++ nsText ns ++ (x :: body') ++ condText ps es = f.text ++ core := by rw [hcore]; simp
  unfold Requirement.parse
  rw [hin, htrim, hsc]
  simp only [hsw, hsn, hpc, Option.bind_eq_bind, Option.bind_some, hb.parse]
  rfl

end Rez
