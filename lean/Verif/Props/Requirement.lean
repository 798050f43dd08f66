import Verif.Lemmas.Requirement
/-!
# Properties of requirements (C19 to C22, C74 to C78)
-/
namespace Rez.Props
open Rez Rez.Spec

/-! ## C19 -/

/-- C19: `and` is conjunction, for all constraints (however built) and versions. -/
theorem C19_and (a b : VersionConstraint) (w : Version) :
    (a.and b).satisfied w = true ↔ a.satisfied w = true ∧ b.satisfied w = true := by
  rw [← Bool.and_eq_true]
  have happ : ∀ l, VersionConstraint.satisfiedAll (l ++ [b]) w = (VersionConstraint.satisfiedAll l w && b.satisfied w) := by
    intro l; rw [satisfiedAll_iff, satisfiedAll_iff]; simp
  cases a <;> cases b <;>
    simp only [VersionConstraint.and, VersionConstraint.satisfied, VersionConstraint.satisfiedAll, happ, Bool.and_true]

/-- C19: `or` is disjunction, for all constraints (however built) and versions. -/
theorem C19_or (a b : VersionConstraint) (w : Version) :
    (a.or b).satisfied w = true ↔ a.satisfied w = true ∨ b.satisfied w = true := by
  rw [← Bool.or_eq_true]
  have happ : ∀ l, VersionConstraint.satisfiedAny (l ++ [b]) w = (VersionConstraint.satisfiedAny l w || b.satisfied w) := by
    intro l; rw [satisfiedAny_iff, satisfiedAny_iff]; simp
  cases a <;> cases b <;>
    simp only [VersionConstraint.or, VersionConstraint.satisfied, VersionConstraint.satisfiedAny, happ, Bool.or_false]

/-- C19, for any number of operands: folding `and` over a list is satisfied exactly when all are. -/
theorem C19_and_many (a : VersionConstraint) (l : List VersionConstraint) (w : Version) :
    (l.foldl VersionConstraint.and a).satisfied w = true ↔ a.satisfied w = true ∧ ∀ c ∈ l, c.satisfied w = true := by
  induction l generalizing a with
  | nil => simp
  | cons c l ih => simp [ih, C19_and, and_assoc]

/-- C19, for any number of operands: folding `or` over a list is satisfied exactly when one is. -/
theorem C19_or_many (a : VersionConstraint) (l : List VersionConstraint) (w : Version) :
    (l.foldl VersionConstraint.or a).satisfied w = true ↔ a.satisfied w = true ∨ ∃ c ∈ l, c.satisfied w = true := by
  induction l generalizing a with
  | nil => simp
  | cons c l ih => simp [ih, C19_or, or_assoc]

/-- `>=1` and (`<2` or `==5`): 1.5 and 5 are accepted, 3 is not -/
example : ∃ one two five a b c, Version.parse c!"1" = some one ∧ Version.parse c!"2" = some two ∧
    Version.parse c!"5" = some five ∧ Version.parse c!"1.5" = some a ∧ Version.parse c!"5.1" = some b ∧
    Version.parse c!"3" = some c ∧
    let k := (VersionConstraint.greaterThanOrEqual one).and ((VersionConstraint.lessThan two).or (.exact five))
    k.satisfied a = true ∧ k.satisfied b = true ∧ k.satisfied c = false :=
  ⟨_, _, _, _, _, _, rfl, rfl, rfl, rfl, rfl, rfl, by decide, by decide, by decide⟩

/-! ## C20 -/

/-- C20 does not hold: the negation of `env.X!=None` is lost, and the requirement read back applies where the
original does not. -/
theorem C20_round_trip_false :
    ∃ r r', Requirement.parse c!"foo[env.X!=None]" = some r ∧ Requirement.parse r.display = some r' ∧
      r.envSatisfied (fun _ => none) = true ∧ r'.envSatisfied (fun _ => none) = false :=
  ⟨_, _, rfl, rfl, by decide, by decide⟩

/-- C20 does not hold: a constraint on the empty version is read back as part of the name. -/
theorem C20_empty_version_false :
    ∃ r r', Requirement.parse c!"foo==epsilon" = some r ∧ Requirement.parse r.display = some r' ∧
      r.name = c!"foo" ∧ r'.name = c!"foo==" := ⟨_, _, rfl, rfl, by decide, by decide⟩

/-- C20, partial: every requirement built from a valid name, an optional namespace, at most one of the two
flags, a constraint of the written forms and conditions over the allowed characters is read back unchanged.
Missing: the requirements outside `WritableReq` (refuted above). -/
theorem C20_round_trip_partial (r : Requirement) (h : WritableReq r) : Requirement.parse r.display = some r := by
  obtain ⟨name, c, weak, conflict, ps, es, ns⟩ := r
  have hb := body_writable h.name h.constraint
  have key : ∀ f : Flag, (if conflict then c!"!" else if weak then c!"~" else []) = f.text →
      (f == .weak) = weak → (f == .conflict) = conflict →
      Requirement.parse (Requirement.display ⟨name, c, weak, conflict, ps, es, ns⟩) =
        some ⟨name, c, weak, conflict, ps, es, ns⟩ := by
    intro f hf hw hc
    have := parse_assemble f ns h.ns hb ps h.platforms es h.envs
    rw [hw, hc] at this
    rw [← this]
    congr 1
    simp only [Requirement.display, hf, nsText, condText, List.append_assoc]
    cases c <;> rfl
  have hfl := h.flags
  cases weak <;> cases conflict
  · exact key .plain rfl rfl rfl
  · exact key .conflict rfl rfl rfl
  · exact key .weak rfl rfl rfl
  · exact absurd ⟨rfl, rfl⟩ hfl

/-- a requirement with every feature meets the hypotheses -/
example : ∃ a b, Version.parse c!"1.2" = some a ∧ Version.parse c!"3-rc.1" = some b ∧
    WritableReq ⟨c!"py-lib", some (.multiple [.greaterThanOrEqual a, .lessThan b]), true, false,
      [⟨c!"linux", none, true⟩], [⟨c!"HOME", none, false⟩, ⟨c!"X", some c!"a b", true⟩], some c!"studio"⟩ := by
  refine ⟨_, _, rfl, rfl, ?_⟩
  refine ⟨⟨by decide, by decide⟩, ?_, by decide, ?_, ?_, ?_⟩
  · intro n hn; simp at hn; subst hn; exact ⟨by decide, by decide⟩
  · exact .list [(.ge, _), (.lt, _)] (by decide) (by
      intro c hc; simp at hc; rcases hc with rfl | rfl
      · exact ⟨⟨c!"1.2", rfl⟩, by decide⟩
      · exact ⟨⟨c!"3-rc.1", rfl⟩, by decide⟩)
  · intro c hc; simp at hc; subst hc; exact ⟨by unfold Free; decide, rfl⟩
  · intro c hc; simp at hc; rcases hc with rfl | rfl
    · exact ⟨by unfold Free; decide, by simp, fun _ => rfl⟩
    · exact ⟨by unfold Free; decide, by intro v hv; simp at hv; subst hv; unfold Free; decide, by intro h; cases h⟩

/-! ## C21 -/

/-- C21: `[!|~]name OP V` parses to that name, flag, operator and version, for every name over the allowed
alphabet (dashes and dots included) and every non-empty version. -/
theorem C21_operator (f : Flag) (name : Str) (hn : PkgName name) (o : ROp) (v : Version) (hv : RealVersion v) :
    Requirement.parse (f.text ++ name ++ o.text ++ v.asStr) =
      some ⟨name, some (o.constraint v), f == .weak, f == .conflict, [], [], none⟩ := by
  have := parse_assemble f none (by simp) (body_op hn o hv) [] (by simp) [] (by simp)
  simpa [nsText, condText] using this

/-- C21: a comma-separated list of operators parses to their conjunction. -/
theorem C21_list (f : Flag) (name : Str) (hn : PkgName name) (cs : List (ROp × Version)) (h2 : 2 ≤ cs.length)
    (hv : ∀ c ∈ cs, RealVersion c.2) :
    ∃ r, Requirement.parse (f.text ++ name ++ joinWith c!"," (cs.map fun c => c.1.text ++ c.2.asStr)) = some r ∧
      r.name = name ∧ r.weak = (f == .weak) ∧ r.conflict = (f == .conflict) ∧
      ∀ w, r.satisfiedBy w = true ↔ ∀ c ∈ cs, (c.1.constraint c.2).satisfied w = true := by
  have := parse_assemble f none (by simp) (body_list hn h2 hv) [] (by simp) [] (by simp)
  have e : f.text ++ nsText none ++ (name ++ listText cs) ++ condText [] [] =
      f.text ++ name ++ joinWith c!"," (cs.map fun c => c.1.text ++ c.2.asStr) := by
    have : cs.map ropText = cs.map fun c => c.1.text ++ c.2.asStr := rfl
    simp [nsText, condText, listText, this]
  rw [e] at this
  refine ⟨_, this, rfl, rfl, rfl, fun w => ?_⟩
  simp [Requirement.satisfiedBy, VersionConstraint.satisfied, satisfiedAll_iff]

/-- C21 does not hold for names with a dash in the `name-V` form: the name is cut at the first dash. -/
theorem C21_dash_name_false :
    ∃ r, PkgName c!"my-pkg" ∧ Requirement.parse (c!"my-pkg" ++ c!"-" ++ c!"1.0") = some r ∧ r.name = c!"my" :=
  ⟨_, ⟨by decide, by decide⟩, rfl, by decide⟩

/-- C21 does not hold for versions with a dash in the `name-V+` form: the name is cut at the last dash. -/
theorem C21_dash_version_false :
    ∃ v r, Version.parse c!"1.0-beta" = some v ∧ Requirement.parse (c!"foo" ++ c!"-" ++ v.asStr ++ c!"+") = some r ∧
      r.name = c!"foo-1.0" := ⟨_, _, rfl, rfl, by decide⟩

/-- C21, partial: `name-V` parses to the prefix constraint.  Missing: names with a dash (refuted above). -/
theorem C21_prefix_partial (f : Flag) (name : Str) (hn : PkgName name) (hd : '-' ∉ name) (v : Version) (hv : Parsed v) :
    Requirement.parse (f.text ++ name ++ c!"-" ++ v.asStr) =
      some ⟨name, some (.prefixOf v), f == .weak, f == .conflict, [], [], none⟩ := by
  have := parse_assemble f none (by simp) (body_prefix hn hd hv) [] (by simp) [] (by simp)
  simpa [nsText, condText] using this

/-- C21: what the prefix form accepts: the versions with at least V's tokens, equal to them one by one.  Missing:
names with a dash (refuted above). -/
theorem C21_prefix_meaning_partial (name : Str) (hn : PkgName name) (hd : '-' ∉ name) (v : Version) (hv : Parsed v) :
    ∃ r, Requirement.parse (name ++ c!"-" ++ v.asStr) = some r ∧ r.name = name ∧
      ∀ w, r.satisfiedBy w = true ↔ v.tokens.length ≤ w.tokens.length ∧
        ∀ i (h1 : i < v.tokens.length) (h2 : i < w.tokens.length), cmpToken w.tokens[i] v.tokens[i] = .eq :=
  ⟨_, C21_prefix_partial .plain name hn hd v hv, rfl, fun w => hasPrefix_iff w v⟩

/-- C21, partial: `name-V+` parses to `>=V`, for every name.  Missing: versions with a dash (refuted above). -/
theorem C21_plus_partial (f : Flag) (name : Str) (hn : PkgName name) (v : Version) (hv : Parsed v)
    (hd : '-' ∉ v.asStr) :
    Requirement.parse (f.text ++ name ++ c!"-" ++ v.asStr ++ c!"+") =
      some ⟨name, some (.greaterThanOrEqual v), f == .weak, f == .conflict, [], [], none⟩ := by
  have := parse_assemble f none (by simp) (body_plus hn hv hd) [] (by simp) [] (by simp)
  simpa [nsText, condText] using this

/-- C21, partial: `name-V+<W` and `name-V+<=W` parse to `>=V` and the upper bound.  Missing: names with a dash
(refuted above). -/
theorem C21_plus_upper_partial (f : Flag) (name : Str) (hn : PkgName name) (hd : '-' ∉ name) (v w : Version)
    (hv : Parsed v) (hw : RealVersion w) (incl : Bool) :
    Requirement.parse (f.text ++ name ++ c!"-" ++ v.asStr ++ c!"+<" ++ (if incl then c!"=" else []) ++ w.asStr) =
      some ⟨name, some (.multiple [.greaterThanOrEqual v, if incl then .lessThanOrEqual w else .lessThan w]),
        f == .weak, f == .conflict, [], [], none⟩ := by
  have := parse_assemble f none (by simp) (body_plusUpper hn hd hv hw incl) [] (by simp) [] (by simp)
  simpa [nsText, condText] using this

/-- C21: a bare name has no constraint.  Missing: names with a dash. -/
theorem C21_bare_partial (f : Flag) (name : Str) (hn : PkgName name) (hd : '-' ∉ name) :
    Requirement.parse (f.text ++ name) = some ⟨name, none, f == .weak, f == .conflict, [], [], none⟩ := by
  have := parse_assemble f none (by simp) (body_none hn hd) [] (by simp) [] (by simp)
  simpa [nsText, condText] using this

example : PkgName c!"py.qt5_x" ∧ '-' ∉ c!"py.qt5_x" ∧
    ∃ v, Version.parse c!"1.2+b" = some v ∧ RealVersion v ∧ '-' ∉ v.asStr :=
  ⟨⟨by decide, by decide⟩, by decide, _, rfl, ⟨⟨c!"1.2+b", rfl⟩, by decide⟩, by decide⟩

/-! ## C22 -/

/-- C22 does not hold: for `foo-1.0` the solver accepts 1.0.5 and the context rejects it. -/
theorem C22_agree_false :
    ∃ r p v, Requirement.parse c!"foo-1.0" = some r ∧ PackageRequirement.parse c!"foo-1.0" = .ok p ∧
      Version.parse c!"1.0.5" = some v ∧ r.satisfiedBy v = true ∧ p.satisfiedBy v = false :=
  ⟨_, _, _, rfl, rfl, rfl, by decide, by decide⟩

/-- C22 does not hold: for `foo-3+` the solver accepts 3.11 and the context rejects it. -/
theorem C22_agree_plus_false :
    ∃ r p v, Requirement.parse c!"foo-3+" = some r ∧ PackageRequirement.parse c!"foo-3+" = .ok p ∧
      Version.parse c!"3.11" = some v ∧ r.satisfiedBy v = true ∧ p.satisfiedBy v = false :=
  ⟨_, _, _, rfl, rfl, rfl, by decide, by decide⟩

theorem pr_parse {f : Flag} {name rest : Str} {c : Option VersionConstraint} (hn : PkgName name)
    (hr : stripDash rest = rest)
    (h : Requirement.parse (name ++ rest) = some ⟨name, c, false, false, [], [], none⟩) :
    PackageRequirement.parse (f.text ++ (name ++ rest)) =
      .ok ⟨name, if rest.isEmpty then none else some rest, f == .weak, f == .conflict⟩ := by
  obtain ⟨y, ys, hy, hyn⟩ : ∃ y ys, name ++ rest = y :: ys ∧ nameChar y = true := by
    obtain ⟨h1, h2⟩ := hn
    obtain ⟨y, ys, rfl⟩ := List.exists_cons_of_ne_nil h1
    exact ⟨y, ys ++ rest, rfl, nameChar_iff.mpr (h2 y (by simp))⟩
  have hy1 : y ≠ '!' := by rintro rfl; revert hyn; decide
  have hy2 : y ≠ '~' := by rintro rfl; revert hyn; decide
  have hy3 : y ≠ '=' := by rintro rfl; revert hyn; decide
  have hsl := sliceBytes_append name rest
  have h1 : stripConflict (f.text ++ (name ++ rest)) =
      ((if f = .conflict then name ++ rest else f.text ++ (name ++ rest)), f == .conflict) := by
    cases f
    · simp only [Flag.text, List.nil_append, hy, stripConflict]
      split
      · rename_i h; simp at h; exact absurd h.1 hy1
      · rfl
    · rfl
    · rfl
  have h2 : stripWeakPR (if f = .conflict then name ++ rest else f.text ++ (name ++ rest)) =
      (name ++ rest, f == .weak) := by
    have plain : stripWeakPR (name ++ rest) = (name ++ rest, false) := by
      rw [hy]; unfold stripWeakPR
      split
      · rename_i h; simp at h; exact absurd h.1 hy2
      · rename_i h; simp at h; exact absurd h.1 hy2
      · rfl
    cases f
    · exact plain
    · simp only [Flag.text, hy, reduceCtorEq, if_false, List.cons_append, List.nil_append, stripWeakPR]
      split
      · rename_i h; simp at h; exact absurd h.1 hy3
      · rename_i h; simp at h; rw [h]; rfl
      · rename_i h h3; exact absurd rfl (h3 _)
    · exact plain
  unfold PackageRequirement.parse
  rw [h1]
  simp only [h2, h, hsl, hr]

/-- C22, partial: for `[!|~]name OP V[,OP V...]` both types parse, to the same name and flags, and accept
exactly the same versions.  Missing: the dash forms (refuted above), namespaces and conditions. -/
theorem C22_agree_partial (f : Flag) (name : Str) (hn : PkgName name) (cs : List (ROp × Version)) (hne : cs ≠ [])
    (hv : ∀ c ∈ cs, RealVersion c.2) :
    let s := f.text ++ (name ++ joinWith c!"," (cs.map fun c => c.1.text ++ c.2.asStr))
    ∃ r p, Requirement.parse s = some r ∧ PackageRequirement.parse s = .ok p ∧ p.name = r.name ∧ p.weak = r.weak ∧
      p.conflict = r.conflict ∧ ∀ w, p.satisfiedBy w = r.satisfiedBy w := by
  intro s
  have hs : s = f.text ++ (name ++ listText cs) := rfl
  have hbody : ∃ c, Body (name ++ listText cs) name (some c) ∧
      ∀ w, c.satisfied w = cs.all fun c => (c.1.constraint c.2).satisfied w := by
    match cs, hne with
    | [c], _ =>
      refine ⟨c.1.constraint c.2, ?_, by simp⟩
      have := body_op hn c.1 (hv c (by simp))
      rwa [List.append_assoc] at this
    | a :: b :: l, _ =>
      refine ⟨_, body_list hn (by simp) hv, fun w => ?_⟩
      simp [VersionConstraint.satisfied, satisfiedAll_iff, Function.comp_def]
  obtain ⟨c, hb, hc⟩ := hbody
  have hp := parse_assemble f none (by simp) hb [] (by simp) [] (by simp)
  have hp0 := parse_assemble .plain none (by simp) hb [] (by simp) [] (by simp)
  simp only [nsText, condText, List.flatMap_nil, List.append_nil, Flag.text, List.nil_append] at hp hp0
  have hhead : ∃ x xs, listText cs = x :: xs ∧ x ≠ '-' := by
    obtain ⟨a, l, rfl⟩ := List.exists_cons_of_ne_nil hne
    obtain ⟨x, xs, hx, _, _, h3, _⟩ := ROp.text_head a.1
    cases l with
    | nil => exact ⟨x, xs ++ a.2.asStr, by simp [listText, joinWith, ropText, hx], h3⟩
    | cons b l =>
      refine ⟨x, xs ++ (a.2.asStr ++ (c!"," ++ listText (b :: l))), ?_, h3⟩
      simp [listText, joinWith, ropText, hx]
  obtain ⟨x, xs, hx, hx1⟩ := hhead
  have hsd : stripDash (listText cs) = listText cs := by
    rw [hx]; unfold stripDash; split
    · rename_i h; simp at h; exact absurd h.1 hx1
    · rfl
  have hpr := pr_parse (f := f) hn hsd hp0
  have hemp : (listText cs).isEmpty = false := by rw [hx]; rfl
  rw [hemp] at hpr
  refine ⟨_, _, hs ▸ hp, hs ▸ hpr, rfl, rfl, rfl, fun w => ?_⟩
  simp only [Bool.false_eq_true, if_false]
  rw [satisfiedBy_listText hne hv]
  simp [Requirement.satisfiedBy, hc]

example : PkgName c!"my-pkg" ∧ ∃ v w, Version.parse c!"3" = some v ∧ Version.parse c!"4.2" = some w ∧
    RealVersion v ∧ RealVersion w :=
  ⟨⟨by decide, by decide⟩, _, _, rfl, rfl, ⟨⟨c!"3", rfl⟩, by decide⟩, ⟨⟨c!"4.2", rfl⟩, by decide⟩⟩

/-! ## C74: constraints compare at their own depth -/

/-- C74 does not hold: the shorter version 1 satisfies `==1.5`. -/
theorem C74_shorter_false :
    ∃ r v, Requirement.parse c!"foo==1.5" = some r ∧ Version.parse c!"1" = some v ∧ r.satisfiedBy v = true :=
  ⟨_, _, rfl, rfl, by decide⟩

/-- C74, partial: for numeric versions with at least as many components as the constraint, `==`, `>=`, `<=`,
`>`, `<` compare the leading components lexicographically and ignore the rest.  Missing: shorter versions
(refuted above) and versions with letters. -/
theorem C74_depth_partial (xs ys : List Nat) (hx : xs ≠ []) (hx5 : xs.length ≤ 5) (hy : ys ≠ [])
    (hl : ys.length ≤ xs.length) (bx : ∀ x ∈ xs, x < 2 ^ 64) (byy : ∀ y ∈ ys, y < 2 ^ 64) :
    ∃ v w, Version.parse (dotted xs) = some w ∧ Version.parse (dotted ys) = some v ∧
      ((ROp.eq.constraint v).satisfied w = true ↔ xs.take ys.length = ys) ∧
      ((ROp.lt.constraint v).satisfied w = true ↔ xs.take ys.length < ys) ∧
      ((ROp.gt.constraint v).satisfied w = true ↔ ys < xs.take ys.length) ∧
      ((ROp.le.constraint v).satisfied w = true ↔ xs.take ys.length < ys ∨ xs.take ys.length = ys) ∧
      ((ROp.ge.constraint v).satisfied w = true ↔ ys < xs.take ys.length ∨ xs.take ys.length = ys) := by
  refine ⟨_, _, parse_dotted hx hx5, parse_dotted hy (by omega), ?_⟩
  have hc := cmpParts_numeric bx byy hl
  rw [← splitChar_dotted hx, ← splitChar_dotted hy] at hc
  simp only [ROp.constraint, VersionConstraint.satisfied, cmpAtDepth, Version.asStr, beq_iff_eq, Bool.or_eq_true, hc]
  simp

/-- C74, partial: `~=P.Y` is satisfied exactly by the versions that start with P followed by a component of
at least Y. -/
theorem C74_compatible_partial (xs pre : List Nat) (y : Nat) (hx : xs ≠ []) (hx5 : xs.length ≤ 5)
    (hp : pre.length < 5) (bx : ∀ x ∈ xs, x < 2 ^ 64) (byy : y < 2 ^ 64) :
    ∃ v w, Version.parse (dotted xs) = some w ∧ Version.parse (dotted (pre ++ [y])) = some v ∧
      ((ROp.compat.constraint v).satisfied w = true ↔ ∃ x rest, xs = pre ++ x :: rest ∧ y ≤ x) := by
  refine ⟨_, _, parse_dotted hx hx5, parse_dotted (by simp) (by simp; omega), ?_⟩
  have hc := compatParts_numeric (pre := pre) bx byy
  have e1 := splitChar_dotted hx
  have e2 := splitChar_dotted (ns := pre ++ [y]) (by simp)
  simp only [ROp.constraint, VersionConstraint.satisfied, Version.asStr, e1, e2]
  rw [← hc]
  split
  · rename_i hlt
    constructor
    · intro h; cases h
    · intro h
      obtain ⟨x, rest, rfl, _⟩ := hc.mp h
      simp at hlt
  · rfl

example : (3 :: 11 :: [4]).length ≤ 5 ∧ [3, 11].length ≤ [3, 11, 4].length ∧ [3, 11, 4].take 2 = [3, 11] := by decide

/-! ## C75: architecture conditions -/

/-- C75 does not hold: a requirement restricted to an architecture also applies on another one. -/
theorem C75_arch_false :
    ∃ r, Requirement.parse c!"foo[platform=='linux' and arch=='x86_64']" = some r ∧
      r.platformSatisfied c!"linux" (some c!"arm64") = true := ⟨_, rfl, by decide⟩

theorem parseConditions_arch {fuel : Nat} {before s rest : Str} {ps P : List PlatformCondition}
    {es E : List EnvCondition} (h : parseConditions fuel before s ps es = some (rest, P, E))
    (hps : ∀ p ∈ ps, p.arch = none) : ∀ p ∈ P, p.arch = none := by
  induction fuel generalizing before s ps es with
  | zero => cases h
  | succ fuel ih =>
    rw [parseConditions] at h
    split at h
    · simp at h; rw [← h.2.1]; exact hps
    · split at h
      · cases h
      · split at h
        · split at h
          · cases h
          · rename_i cond after _ _ p hp
            refine ih h ?_
            intro q hq
            rcases List.mem_append.mp hq with hq | hq
            · exact hps q hq
            · simp at hq; subst hq
              unfold parsePlatformCondition at hp
              simp only [Option.bind_eq_bind, Option.bind_eq_some_iff] at hp
              obtain ⟨_, _, ⟨a, b⟩, _, hp⟩ := hp
              simp at hp
              rw [← hp]; exact archOf_none _ _
        · split at h
          · split at h
            · cases h
            · exact ih h hps
          · cases h

/-- C75, what the code guarantees instead: no parsed requirement ever carries an architecture, so none depends
on it. -/
theorem C75_arch_ignored (s : Str) (r : Requirement) (h : Requirement.parse s = some r) (platform : Str)
    (a b : Option Str) : r.platformSatisfied platform a = r.platformSatisfied platform b := by
  have harch : ∀ p ∈ r.platforms, p.arch = none := by
    unfold Requirement.parse at h
    simp only [Option.bind_eq_bind, Option.bind_eq_some_iff] at h
    obtain ⟨⟨rest, ps, es⟩, h1, ⟨name, c⟩, h2, h3⟩ := h
    simp at h3
    subst h3
    exact parseConditions_arch h1 (by simp)
  have hhit : ∀ p ∈ r.platforms, Requirement.platformHit p platform a = Requirement.platformHit p platform b := by
    intro p hp; simp [Requirement.platformHit, harch p hp]
  have hloop : ∀ l : List PlatformCondition, (∀ p ∈ l, p ∈ r.platforms) →
      Requirement.platformLoop r.platforms l platform a = Requirement.platformLoop r.platforms l platform b := by
    intro l hl
    induction l with
    | nil => rfl
    | cons p l ih =>
      have := ih (fun q hq => hl q (by simp [hq]))
      simp only [Requirement.platformLoop, hhit p (hl p (by simp)), this]
  unfold Requirement.platformSatisfied
  rw [hloop _ (fun _ h => h)]

example : (Requirement.parse c!"foo[platform=='linux' and arch=='x86_64']").isSome = true := by decide

/-! ## C76: platform and environment conditions -/

/-- C76 does not hold: the order of the conditions matters. -/
theorem C76_order_false :
    ∃ r r', Requirement.parse c!"foo[platform=='linux'][platform!='linux']" = some r ∧
      Requirement.parse c!"foo[platform!='linux'][platform=='linux']" = some r' ∧
      r.platformSatisfied c!"linux" none = true ∧ r'.platformSatisfied c!"linux" none = false :=
  ⟨_, _, rfl, rfl, by decide, by decide⟩

/-- C76, partial: unless a platform is both required and excluded, the conditions hold exactly when no `!=`
condition names the platform and, if there are `==` conditions, one of them does.  Missing: contradictory
conditions (refuted above). -/
theorem C76_platform_partial (s : Str) (r : Requirement) (h : Requirement.parse s = some r) (platform : Str)
    (arch : Option Str)
    (hcons : ∀ c ∈ r.platforms, ∀ d ∈ r.platforms, c.negate = true → d.negate = false → c.platform ≠ d.platform) :
    r.platformSatisfied platform arch = true ↔
      (∀ c ∈ r.platforms, c.negate = true → c.platform ≠ platform) ∧
      ((∃ c ∈ r.platforms, c.negate = false) → ∃ c ∈ r.platforms, c.negate = false ∧ c.platform = platform) := by
  have harch : ∀ p ∈ r.platforms, p.arch = none := by
    unfold Requirement.parse at h
    simp only [Option.bind_eq_bind, Option.bind_eq_some_iff] at h
    obtain ⟨⟨rest, ps, es⟩, h1, ⟨name, c⟩, h2, h3⟩ := h
    simp at h3
    subst h3
    exact parseConditions_arch h1 (by simp)
  have hhit : ∀ p ∈ r.platforms, Requirement.platformHit p platform arch = (p.platform == platform) := by
    intro p hp; simp [Requirement.platformHit, harch p hp]
  have hloop : ∀ l : List PlatformCondition, (∀ p ∈ l, p ∈ r.platforms) →
      (Requirement.platformLoop r.platforms l platform arch = true ↔
        (∀ c ∈ l, c.negate = true → c.platform ≠ platform) ∧
        ((∃ c ∈ l, c.negate = false ∧ c.platform = platform) ∨ ∀ c ∈ r.platforms, c.negate = true)) := by
    intro l hl
    induction l with
    | nil => simp [Requirement.platformLoop]
    | cons p l ih =>
      have ih := ih (fun q hq => hl q (by simp [hq]))
      have hp := hl p (by simp)
      simp only [Requirement.platformLoop, hhit p hp]
      by_cases hpn : p.negate = true
      · by_cases hpp : p.platform = platform
        · simp [hpn, hpp]
        · simp [hpn, hpp, ih]
      · simp only [Bool.not_eq_true] at hpn
        by_cases hpp : p.platform = platform
        · simp [hpn, hpp]
          intro c hc hcn
          intro he
          exact hcons c (hl c (by simp [hc])) p hp hcn hpn (by rw [he, hpp])
        · simp [hpn, hpp, ih]
  unfold Requirement.platformSatisfied
  split
  · rename_i he
    simp at he
    simp [he]
  · rw [hloop _ (fun _ h => h)]
    constructor
    · rintro ⟨h1, h2⟩
      refine ⟨h1, ?_⟩
      rintro ⟨c, hc, hcn⟩
      rcases h2 with h2 | h2
      · exact h2
      · rw [h2 c hc] at hcn; cases hcn
    · rintro ⟨h1, h2⟩
      refine ⟨h1, ?_⟩
      by_cases he : ∃ c ∈ r.platforms, c.negate = false
      · exact .inl (h2 he)
      · right
        intro c hc
        cases hn : c.negate with
        | true => rfl
        | false => exact absurd ⟨c, hc, hn⟩ he

/-- C76: the environment conditions hold exactly when each does: `env.X==v` when X has that value, `env.X!=v`
when it does not, `env.X` when X is set. -/
theorem C76_env (r : Requirement) (env : Str → Option Str) :
    r.envSatisfied env = true ↔ ∀ c ∈ r.envs,
      match c.expected, c.negate with
      | some v, false => env c.varName = some v
      | some v, true => env c.varName ≠ some v
      | none, false => env c.varName ≠ none
      | none, true => env c.varName = none := by
  unfold Requirement.envSatisfied
  rw [List.all_eq_true]
  constructor
  · intro h c hc
    have := h c hc
    revert this
    unfold Requirement.envHit
    cases c.expected <;> cases c.negate <;> simp
    cases env c.varName <;> simp
  · intro h c hc
    have := h c hc
    revert this
    unfold Requirement.envHit
    cases c.expected <;> cases c.negate <;> simp
    cases env c.varName <;> simp

example : ∃ r, Requirement.parse c!"foo[platform!='osx'][platform=='linux'][env.X=='1']" = some r ∧
    (∀ c ∈ r.platforms, ∀ d ∈ r.platforms, c.negate = true → d.negate = false → c.platform ≠ d.platform) ∧
    r.platformSatisfied c!"linux" none = true ∧ r.platformSatisfied c!"osx" none = false :=
  ⟨_, rfl, by decide, by decide, by decide⟩

/-! ## C77: parsing a package requirement never aborts -/

/-- C77 does not hold: a space before a non-ASCII name makes the slice panic. -/
theorem C77_no_panic_false : PackageRequirement.parse c!" é" = .panic := by decide

/-- C77, partial: no ASCII text makes the parser panic.  Missing: non-ASCII texts (refuted above). -/
theorem C77_no_panic_partial (s : Str) (h : ∀ c ∈ s, c.toNat < 128) : PackageRequirement.parse s ≠ .panic := by
  unfold PackageRequirement.parse
  have hsub : (stripWeakPR (stripConflict s).1).1.Sublist s := by
    refine List.Sublist.trans ?_ (stripConflict_sublist s)
    unfold stripWeakPR
    split
    · rename_i r he; rw [he]; exact List.Sublist.refl _
    · rename_i r _ he; rw [he]; exact List.sublist_cons_self _ _
    · exact List.Sublist.refl _
  obtain ⟨t, ht⟩ : ∃ t, t = (stripWeakPR (stripConflict s).1).1 := ⟨_, rfl⟩
  rw [← ht] at hsub
  have hta : ∀ c ∈ t, c.toNat < 128 := fun c hc => h c (hsub.subset hc)
  simp only [← ht]
  cases hp : Requirement.parse t with
  | none => simp
  | some p =>
    have hns := parse_name_sublist hp
    have hna : ∀ c ∈ p.name, c.toNat < 128 := fun c hc => hta c (hns.subset hc)
    have := sliceBytes_ascii hta (n := byteLen p.name) (by rw [byteLen_ascii hna]; exact hns.length_le)
    simp only [this]
    simp

example : ∀ c ∈ c!"  ~foo-1.0+", c.toNat < 128 := by decide

/-! ## C78: wildcards -/

/-- C78: `name==A.B.*` is satisfied exactly by the versions whose dot-separated parts start with A, B. -/
theorem C78_wildcard (name : Str) (hn : PkgName name) (ps : List Str) (hne : ps ≠ [])
    (hps : ∀ p ∈ ps, p ≠ c!"*" ∧ p ≠ [] ∧ Free c!".\n[" p) :
    ∃ r, Requirement.parse (name ++ c!"==" ++ joinWith c!"." (ps ++ [c!"*"])) = some r ∧ r.name = name ∧
      ∀ w, r.satisfiedBy w = true ↔ ps <+: splitChar '.' w.asStr := by
  obtain ⟨a, l, rfl⟩ := List.exists_cons_of_ne_nil hne
  obtain ⟨c, cs, rfl⟩ := List.exists_cons_of_ne_nil (hps a (by simp)).2.1
  have hj : ∃ p, joinWith c!"." (((c :: cs) :: l) ++ [c!"*"]) = c :: p ∧ '*' ∈ p ∧ p.getLast? = some '*' ∧
      ∀ d, d ∈ c :: p → d = '*' ∨ d = '.' ∨ ∃ q ∈ (c :: cs) :: l, d ∈ q := by
    have hall : ∀ d, d ∈ joinWith c!"." (((c :: cs) :: l) ++ [c!"*"]) → d = '*' ∨ d = '.' ∨ ∃ q ∈ (c :: cs) :: l, d ∈ q := by
      intro d hd
      rcases mem_joinWith hd with hd | ⟨q, hq, hd⟩
      · right; left; simpa using hd
      · rcases List.mem_append.mp hq with hq | hq
        · exact .inr (.inr ⟨q, hq, hd⟩)
        · simp at hq; subst hq; left; simpa using hd
    have hlast : ∀ m : List Str, ∃ q, joinWith c!"." (m ++ [c!"*"]) = q ++ c!"*" := by
      intro m
      induction m with
      | nil => exact ⟨[], rfl⟩
      | cons x m ih =>
        obtain ⟨q, hq⟩ := ih
        cases m with
        | nil => exact ⟨x ++ c!".", by simp [joinWith]⟩
        | cons y m =>
          refine ⟨x ++ c!"." ++ q, ?_⟩
          simp only [List.cons_append] at hq ⊢
          rw [joinWith_two, hq]; simp
    obtain ⟨q, hq⟩ := hlast l
    have e : joinWith c!"." (((c :: cs) :: l) ++ [c!"*"]) = c :: (cs ++ c!"." ++ q ++ c!"*") := by
      rw [List.cons_append]
      cases hm : l ++ [c!"*"] with
      | nil => simp at hm
      | cons y m => rw [joinWith_two, ← hm, hq]; simp
    refine ⟨cs ++ c!"." ++ q ++ c!"*", e, by simp, ?_, ?_⟩
    · rw [getLast?_append_ne (by simp)]; rfl
    · rw [← e]; exact hall
  obtain ⟨p, hp, hs, hlast, hall⟩ := hj
  have hf : Free c!"\n[" (c :: p) := by
    intro d hd hm
    have hd' : d ∈ c!".\n[" := List.mem_cons_of_mem _ hd
    rcases hall d hm with rfl | rfl | ⟨q, hq, hdq⟩
    · simp at hd
    · simp at hd
    · exact (hps q hq).2.2 d hd' hdq
  have hb := body_wildcard hn hs hf (by intro d hd; rw [hlast] at hd; simp at hd; subst hd; decide)
  have := parse_assemble .plain none (by simp) hb [] (by simp) [] (by simp)
  simp only [nsText, condText, List.flatMap_nil, List.append_nil, Flag.text, List.nil_append] at this
  rw [hp]
  refine ⟨_, this, rfl, fun w => ?_⟩
  simp only [Requirement.satisfiedBy, VersionConstraint.satisfied]
  rw [← hp, splitChar_join (by simp), wildcardParts_star (fun p hp => (hps p hp).1)]
  intro q hq
  rcases List.mem_append.mp hq with hq | hq
  · exact (hps q hq).2.2 '.' (by simp)
  · simp at hq; subst hq; decide

example : ∃ r v, Requirement.parse c!"foo==1.2.*" = some r ∧ Version.parse c!"1.2.9" = some v ∧
    r.satisfiedBy v = true := ⟨_, _, rfl, rfl, by decide⟩

end Rez.Props
