import Verif.Spec.SolveApi
import Verif.Props.Requirement
import Verif.Props.Resolver
/-!
# C199–C201: what the resolver is asked for, and what its answer is taken for
-/
namespace Rez.Props
open Rez Rez.Spec Rez.SolveApi Rez.Spec.SolveApi

/-! ## The resolver of `Model/Resolver.lean` behind the interface, for the examples -/

/-- A package of the resolver, with commands and base. -/
def pkgOf (p : Package) : Pkg := ⟨p.name, p.version, none, p.requires, p.tools, none, none⟩

/-- The answer of the resolver. -/
def answerOf (r : Resolver.Result) : Answer where
  resolved := r.resolved.map fun i => ⟨pkgOf i.package, i.requested, i.requiredBy, i.satisfying⟩
  failed := r.failed
  conflicts := r.conflicts.map fun c => ⟨c.name, [c.requirement], []⟩

/-- A world in which the repositories hold these packages. -/
def solverWorld (ps : List Package) : World where
  solve := fun strict pre latest _ reqs =>
    ((Resolver.resolve { demoEnv strict ps with allowPrerelease := pre, preferLatest := latest } 100 reqs).join).map answerOf
  packagesPath := [c!"/packages"]
  exists_ := fun _ => true
  debug := fun v => v.asStr
  valid := fun _ => true
  iter := fun m => m

/-! ## C199 -/

theorem stripWeak_name {s : Str} {y : Char} {ys : Str} (hs : s = y :: ys) (h : nameChar y = true) :
    stripConflict s = (s, false) ∧ stripWeak s false = (s, false) := by
  have h1 : y ≠ '!' := by rintro rfl; revert h; decide
  have h2 : y ≠ '~' := by rintro rfl; revert h; decide
  subst hs
  constructor
  · unfold stripConflict; split
    · rename_i h; simp at h; exact absurd h.1 h1
    · rfl
  · unfold stripWeak
    simp only [Bool.false_eq_true, if_false]
    split
    · rename_i h; simp at h; exact absurd h.1 h2
    · rfl

/-- `Requirement.parse` after the marks are taken off. -/
def parseBody (weak conflict : Bool) (s : Str) : Option Requirement := do
  let (s, ns) := stripNamespace s
  let (rest, ps, es) ← parseConditions (s.length + 1) [] s [] []
  let (name, c) ← parseNameVersion rest
  return ⟨name, c, weak, conflict, ps, es, ns⟩

theorem parseBody_flags (w c : Bool) (s : Str) :
    parseBody w c s = (parseBody false false s).map fun q => { q with weak := w, conflict := c } := by
  unfold parseBody
  simp only [bind, Option.bind, pure]
  generalize parseConditions ((stripNamespace s).1.length + 1) [] (stripNamespace s).1 [] [] = x
  cases x with
  | none => rfl
  | some x =>
    obtain ⟨r, ps, es⟩ := x
    simp only
    cases parseNameVersion r <;> rfl

/-- A mark in front of a text that begins with a name is read as such. -/
theorem parse_flag {f : Flag} {name rest : Str} {q : Requirement} (hn : PkgName name)
    (h : Requirement.parse (name ++ rest) = some q) :
    Requirement.parse (f.text ++ (name ++ rest)) = some { q with weak := f == .weak, conflict := f == .conflict } := by
  obtain ⟨y, ys, hy, hyn⟩ : ∃ y ys, name ++ rest = y :: ys ∧ nameChar y = true := by
    obtain ⟨h1, h2⟩ := hn
    obtain ⟨y, ys, rfl⟩ := List.exists_cons_of_ne_nil h1
    exact ⟨y, ys ++ rest, rfl, nameChar_iff.mpr (h2 y (by simp))⟩
  have hw := nameChar_noWs hyn
  -- the text without blanks at its end
  obtain ⟨zs, hz⟩ : ∃ zs, trim (name ++ rest) = y :: zs := by
    rw [hy]
    have e : trimStart (y :: ys) = y :: ys := by simp [trimStart, hw]
    have : y ∈ trimEnd (y :: ys) := by
      have hp := trimEnd_prefix (y :: ys)
      unfold trimEnd at *
      by_contra hc
      have hd : ((y :: ys).reverse.dropWhile isWs) = [] := by
        obtain ⟨t, ht⟩ := hp
        cases hl : ((y :: ys).reverse.dropWhile isWs).reverse with
        | nil => simpa using hl
        | cons a l => rw [hl] at ht hc; simp at ht; exact absurd (by simp [ht.1]) hc
      have := List.dropWhile_eq_nil_iff.mp hd y (by simp)
      rw [hw] at this; cases this
    have hp := trimEnd_prefix (y :: ys)
    unfold trim; rw [e]
    obtain ⟨t, ht⟩ := hp
    cases hl : trimEnd (y :: ys) with
    | nil => rw [hl] at this; cases this
    | cons a l => rw [hl] at ht; simp at ht; exact ⟨l, by rw [ht.1]⟩
  have key : ∀ c : Char, isWs c = false → trim (c :: (name ++ rest)) = c :: trim (name ++ rest) := by
    intro c hc
    have e1 : trimStart (c :: (name ++ rest)) = c :: (name ++ rest) := by simp [trimStart, hc]
    have e2 : trimStart (name ++ rest) = name ++ rest := by rw [hy]; simp [trimStart, hw]
    unfold trim; rw [e1, e2]
    unfold trimEnd
    rw [List.reverse_cons, List.dropWhile_append]
    split
    · rename_i he
      exfalso
      have h0 : trim (name ++ rest) = [] := by
        unfold trim; rw [e2]; unfold trimEnd
        rw [List.isEmpty_iff.mp he]; rfl
      rw [hz] at h0; cases h0
    · simp
  have hs := stripWeak_name hz hyn
  have h0 : parseBody false false (trim (name ++ rest)) = some q := by
    have : Requirement.parse (name ++ rest) = parseBody (stripWeak (stripConflict (trim (name ++ rest))).1 (stripConflict (trim (name ++ rest))).2).2
        (stripConflict (trim (name ++ rest))).2 (stripWeak (stripConflict (trim (name ++ rest))).1 (stripConflict (trim (name ++ rest))).2).1 := rfl
    rw [hs.1, hs.2] at this
    rw [← this]; exact h
  have key2 : ∀ w c : Bool, parseBody w c (trim (name ++ rest)) = some { q with weak := w, conflict := c } := by
    intro w c; rw [parseBody_flags, h0]; rfl
  cases f
  · have : Requirement.parse (name ++ rest) = parseBody (stripWeak (stripConflict (trim (name ++ rest))).1 (stripConflict (trim (name ++ rest))).2).2
        (stripConflict (trim (name ++ rest))).2 (stripWeak (stripConflict (trim (name ++ rest))).1 (stripConflict (trim (name ++ rest))).2).1 := rfl
    rw [hs.1, hs.2, key2] at this
    exact this
  · have e : trim (Flag.weak.text ++ (name ++ rest)) = '~' :: trim (name ++ rest) := key '~' (by decide)
    have : Requirement.parse (Flag.weak.text ++ (name ++ rest)) = parseBody true false (trim (name ++ rest)) := by
      unfold Requirement.parse; rw [e]; rfl
    rw [this, key2]; rfl
  · have e : trim (Flag.conflict.text ++ (name ++ rest)) = '!' :: trim (name ++ rest) := key '!' (by decide)
    have : Requirement.parse (Flag.conflict.text ++ (name ++ rest)) = parseBody false true (trim (name ++ rest)) := by
      unfold Requirement.parse; rw [e]; rfl
    rw [this, key2]; rfl

/-- A mark, a name and the rest are taken apart as such. -/
theorem pr_parse_any {f : Flag} {name rest : Str} {q : Requirement} (hn : PkgName name)
    (h : Requirement.parse (name ++ rest) = some q) (hq : q.name = name) :
    PackageRequirement.parse (f.text ++ (name ++ rest)) =
      .ok ⟨name, if (stripDash rest).isEmpty then none else some (stripDash rest), f == .weak, f == .conflict⟩ := by
  obtain ⟨y, ys, hy, hyn⟩ : ∃ y ys, name ++ rest = y :: ys ∧ nameChar y = true := by
    obtain ⟨h1, h2⟩ := hn
    obtain ⟨y, ys, rfl⟩ := List.exists_cons_of_ne_nil h1
    exact ⟨y, ys ++ rest, rfl, nameChar_iff.mpr (h2 y (by simp))⟩
  have hy1 : y ≠ '!' := by rintro rfl; revert hyn; decide
  have hy2 : y ≠ '~' := by rintro rfl; revert hyn; decide
  have hy3 : y ≠ '=' := by rintro rfl; revert hyn; decide
  have hsl := sliceBytes_append name rest
  have h1 : stripConflict (f.text ++ (name ++ rest)) =
      ((if f = .conflict then name ++ rest else f.text ++ (name ++ rest)), f == .conflict) := by
    cases f
    · simp only [Flag.text, List.nil_append, hy, stripConflict]
      split
      · rename_i h; simp at h; exact absurd h.1 hy1
      · rfl
    · rfl
    · rfl
  have h2 : stripWeakPR (if f = .conflict then name ++ rest else f.text ++ (name ++ rest)) =
      (name ++ rest, f == .weak) := by
    have plain : stripWeakPR (name ++ rest) = (name ++ rest, false) := by
      rw [hy]; unfold stripWeakPR
      split
      · rename_i h; simp at h; exact absurd h.1 hy2
      · rename_i h; simp at h; exact absurd h.1 hy2
      · rfl
    cases f
    · exact plain
    · simp only [Flag.text, hy, reduceCtorEq, if_false, List.cons_append, List.nil_append, stripWeakPR]
      split
      · rename_i h; simp at h; exact absurd h.1 hy3
      · rename_i h; simp at h; rw [h]; rfl
      · rename_i h h3; exact absurd rfl (h3 _)
    · exact plain
  unfold PackageRequirement.parse
  rw [h1]
  simp only [h2, h, hq, hsl]

/-- C199: a request in the usual form is read, shown again as it was written, and is for the resolver what the resolver itself
reads in it. -/
theorem C199_plain {t : Str} (h : Plain t) :
    ∃ p, PackageRequirement.parse t = .ok p ∧ p.display = t ∧ Requirement.parse t = some (toResolver p) := by
  obtain ⟨f, name, rest, q, rfl, hn, hr, hp, hq⟩ := h
  refine ⟨_, pr_parse_any hn hp hq, ?_⟩
  have hd : PackageRequirement.display ⟨name, if (stripDash rest).isEmpty then none else some (stripDash rest), f == .weak,
      f == .conflict⟩ = f.text ++ (name ++ rest) := by
    rcases hr with rfl | ⟨c, r, rfl⟩
    · cases f <;> simp [PackageRequirement.display, stripDash, Flag.text]
    · cases f <;> simp [PackageRequirement.display, stripDash, Flag.text]
  refine ⟨hd, ?_⟩
  unfold toResolver
  rw [hd, parse_flag hn hp]; rfl

theorem dashed_body {name rest : Str} {c : Option VersionConstraint} (hn : PkgName name) (hm : '-' ∉ name) (h : Dashed rest c) :
    Body (name ++ rest) name c := by
  cases h with
  | none => simpa using body_none hn hm
  | version v hv => have := body_prefix hn hm hv.1; simpa using this
  | from_ v hv hd => have := body_plus hn hv.1 hd; simpa using this
  | between v w hv hw => have := body_plusUpper hn hm hv.1 hw false; simpa using this

theorem dashed_shape {rest : Str} {c : Option VersionConstraint} (h : Dashed rest c) : rest = [] ∨ ∃ c r, rest = '-' :: c :: r := by
  have key : ∀ v : Version, RealVersion v → ∀ s : Str, ∃ c r, c!"-" ++ v.asStr ++ s = '-' :: c :: r := by
    intro v hv s
    obtain ⟨c, r, h⟩ := List.exists_cons_of_ne_nil hv.2
    exact ⟨c, r ++ s, by simp [h]⟩
  cases h with
  | none => exact .inl rfl
  | version v hv => right; simpa using key v hv []
  | from_ v hv _ => right; exact key v hv _
  | between v w hv hw => right; have := key v hv (c!"+<" ++ w.asStr); simpa using this

/-- C199: `name`, `name-V`, `name-V+` and `name-V+<W`, perhaps with `!` or `~` in front, are such requests; the resolver is asked
for that package and those versions. -/
theorem C199_forms (f : Flag) {name rest : Str} {c : Option VersionConstraint} (hn : PkgName name) (hm : '-' ∉ name)
    (h : Dashed rest c) :
    Plain (f.text ++ (name ++ rest)) ∧
      ∃ p, PackageRequirement.parse (f.text ++ (name ++ rest)) = .ok p ∧
        toResolver p = ⟨name, c, f == .weak, f == .conflict, [], [], none⟩ := by
  have hb := dashed_body hn hm h
  have hp0 := parse_assemble .plain none (by simp) hb [] (by simp) [] (by simp)
  simp only [nsText, condText, List.flatMap_nil, List.append_nil, Flag.text, List.nil_append] at hp0
  have hpl : Plain (f.text ++ (name ++ rest)) := ⟨f, name, rest, _, rfl, hn, dashed_shape h, hp0, rfl⟩
  refine ⟨hpl, ?_⟩
  obtain ⟨p, h1, _, h3⟩ := C199_plain hpl
  refine ⟨p, h1, ?_⟩
  rw [parse_flag hn hp0] at h3
  exact (Option.some.inj h3).symm

/-- `python-3.9+<4` is such a request, and `!maya`. -/
example : Plain c!"python-3.9+<4" ∧ Plain c!"!maya" ∧ Plain c!"~python-3[platform=='linux']" :=
  ⟨⟨.plain, c!"python", c!"-3.9+<4", _, rfl, ⟨by decide, by decide⟩, .inr ⟨_, _, rfl⟩, rfl, rfl⟩,
    ⟨.conflict, c!"maya", [], _, rfl, ⟨by decide, by decide⟩, .inl rfl, rfl, rfl⟩,
    ⟨.weak, c!"python", c!"-3[platform=='linux']", _, rfl, ⟨by decide, by decide⟩, .inr ⟨_, _, rfl⟩, rfl, rfl⟩⟩

theorem readAll_plain {ts : List Str} (h : ∀ t ∈ ts, Plain t) :
    ∃ ps, readAll ts = .ok ps ∧ parseAll ts = some (ps.map toResolver) ∧ ps.map PackageRequirement.display = ts := by
  induction ts with
  | nil => exact ⟨[], rfl, rfl, rfl⟩
  | cons t ts ih =>
    obtain ⟨p, h1, h2, h3⟩ := C199_plain (h t (by simp))
    obtain ⟨ps, g1, g2, g3⟩ := ih fun x hx => h x (List.mem_cons_of_mem _ hx)
    exact ⟨p :: ps, by simp [readAll, h1, g1], by simp [parseAll, h3, g2], by simp [h2, g3]⟩

theorem parseAll_iff {ts : List Str} {rs : List Requirement} : parseAll ts = some rs ↔ Reads ts rs := by
  unfold Reads
  induction ts generalizing rs with
  | nil => simp only [parseAll, Option.some.injEq, List.forall₂_nil_left_iff]; exact eq_comm
  | cons t ts ih =>
    rw [parseAll]
    cases hp : Requirement.parse t with
    | none => simp [List.forall₂_cons_left_iff, hp]
    | some r =>
      simp only [Option.map_eq_some_iff, List.forall₂_cons_left_iff, hp, Option.some.injEq]
      constructor
      · rintro ⟨a, h1, rfl⟩; exact ⟨r, a, rfl, ih.mp h1, rfl⟩
      · rintro ⟨b, u, rfl, h1, rfl⟩; exact ⟨u, ih.mpr h1, rfl⟩

/-- C199: asked for such requests, a context, an environment and a solver give the resolver what it reads in them itself, in that
order; so does the solve command, for all requests. -/
theorem C199_asked (w : World) {ts : List Str} (h : ∀ t ∈ ts, Plain t) (paths : Option (List Str)) :
    ∃ rs, Reads ts rs ∧
      (newContext w ts paths = match w.solve false false true ((paths.getD w.packagesPath).filter w.exists_) rs with
        | none => .err
        | some a => .ok ⟨(ts.filterMap fun t => match PackageRequirement.parse t with | .ok p => some p | _ => none),
            a.resolved.map (·.package), .resolved, paths.getD w.packagesPath⟩) ∧
      (∀ e, rezEnv w ts none paths = .ok e →
        e.success = (w.solve false false true ((paths.getD w.packagesPath).filter w.exists_) rs).isSome ∧
        ∀ a, w.solve false false true ((paths.getD w.packagesPath).filter w.exists_) rs = some a →
          e.resolved = a.resolved.map (·.package)) ∧
      ∀ c repos, ∃ ps, readAll ts = .ok ps ∧
        (depSolve w c (some repos) ⟨ps, [], [], none, none⟩).map (·.packages) =
          (w.solve c.strict c.allowPrerelease c.preferLatest repos rs).map fun a => a.resolved.map (·.package) := by
  obtain ⟨ps, h1, h2, h3⟩ := readAll_plain h
  refine ⟨_, parseAll_iff.mp h2, ?_, ?_, ?_⟩
  · have hf : (ts.filterMap fun t => match PackageRequirement.parse t with | .ok p => some p | _ => none) = ps := by
      clear h2 h3 h
      induction ts generalizing ps with
      | nil => simp only [readAll, Outcome.ok.injEq] at h1; rw [← h1]; rfl
      | cons t ts ih =>
        rw [readAll] at h1
        cases hp : PackageRequirement.parse t with
        | err => rw [hp] at h1; cases h1
        | panic => rw [hp] at h1; cases h1
        | ok p =>
          rw [hp] at h1
          cases hr : readAll ts with
          | err => simp [hr] at h1
          | panic => simp [hr] at h1
          | ok qs =>
            simp [hr] at h1
            rw [← h1, List.filterMap_cons, hp]
            simp only [ih qs hr]
    rw [hf]
    unfold newContext
    rw [h1]
    simp only [World.resolver, Config.default, World.repos]
    rfl
  · intro e he
    unfold rezEnv at he
    rw [h1] at he
    simp only [World.resolver, Config.default, World.repos] at he
    cases hs : w.solve false false true ((paths.getD w.packagesPath).filter w.exists_) (ps.map toResolver) with
    | none => simp [hs] at he; rw [← he]; exact ⟨rfl, by simp⟩
    | some a =>
      simp [hs] at he; rw [← he]
      exact ⟨rfl, fun b hb => by cases hb; rfl⟩
  · intro c repos
    refine ⟨ps, h1, ?_⟩
    simp [depSolve, World.resolver, Option.map_map, Function.comp_def]

theorem C199_command (w : World) (args : Args) (rs : List Requirement) (h : Reads args.requirements rs) :
    ∃ repos pre post, (solveCmd w args).2 = pre ++ .solve args.strict repos rs :: post ∧
      (∀ a ∈ pre, ∃ s, a = .line s) ∧ ((solveCmd w args).1 = true ↔ (w.solve args.strict false true repos rs).isSome = true) := by
  have hp := parseAll_iff.mpr h
  unfold solveCmd
  simp only [hp]
  refine ⟨solveRepos w args, [.line (c!"Resolving dependencies for: " ++ joinWith c!", " args.requirements),
    .line (c!"Using " ++ decimal (solveRepos w args).length ++ c!" repositories"), .line c!"Starting dependency resolution..."], ?_⟩
  have hr : w.resolver (solveConfig args) (solveRepos w args) rs = w.solve args.strict false true (solveRepos w args) rs := rfl
  rw [hr]
  cases w.solve args.strict false true (solveRepos w args) rs with
  | none => exact ⟨[], rfl, by simp, by simp⟩
  | some a => exact ⟨display w args a, rfl, by simp, by simp⟩

/-- C199 does not hold for requests with an operator: asked for `name OP V,…`, the resolver is given the name with a dash
behind it. -/
theorem C199_operator_false (f : Flag) (name : Str) (hn : PkgName name) (cs : List (ROp × Version)) (hne : cs ≠ [])
    (hv : ∀ c ∈ cs, RealVersion c.2) :
    let t := f.text ++ (name ++ joinWith c!"," (cs.map fun c => c.1.text ++ c.2.asStr))
    ∃ p r, PackageRequirement.parse t = .ok p ∧ Requirement.parse t = some r ∧ r.name = name ∧ (toResolver p).name = name ++ c!"-" := by
  intro t
  have ht : t = f.text ++ (name ++ listText cs) := rfl
  have hbody : ∀ n, PkgName n → ∃ c, Body (n ++ listText cs) n (some c) := by
    intro n hn
    match cs, hne with
    | [c], _ =>
      refine ⟨c.1.constraint c.2, ?_⟩
      have := body_op hn c.1 (hv c (by simp))
      rwa [List.append_assoc] at this
    | a :: b :: l, _ => exact ⟨_, body_list hn (by simp) hv⟩
  have hn' : PkgName (name ++ c!"-") := by
    refine ⟨by simp, fun c hc => ?_⟩
    rcases List.mem_append.mp hc with hc | hc
    · exact hn.2 c hc
    · simp at hc; exact .inr (.inl hc)
  obtain ⟨c, hb⟩ := hbody name hn
  obtain ⟨c', hb'⟩ := hbody _ hn'
  have hp := parse_assemble f none (by simp) hb [] (by simp) [] (by simp)
  have hp0 := parse_assemble .plain none (by simp) hb [] (by simp) [] (by simp)
  have hp' := parse_assemble f none (by simp) hb' [] (by simp) [] (by simp)
  simp only [nsText, condText, List.flatMap_nil, List.append_nil, Flag.text, List.nil_append] at hp hp0 hp'
  have hhead : ∃ x xs, listText cs = x :: xs ∧ x ≠ '-' := by
    obtain ⟨a, l, rfl⟩ := List.exists_cons_of_ne_nil hne
    obtain ⟨x, xs, hx, _, _, h3, _⟩ := ROp.text_head a.1
    cases l with
    | nil => exact ⟨x, xs ++ a.2.asStr, by simp [listText, joinWith, ropText, hx], h3⟩
    | cons b l =>
      refine ⟨x, xs ++ (a.2.asStr ++ (c!"," ++ listText (b :: l))), ?_, h3⟩
      simp [listText, joinWith, ropText, hx]
  obtain ⟨x, xs, hx, hx1⟩ := hhead
  have hsd : stripDash (listText cs) = listText cs := by
    rw [hx]; unfold stripDash; split
    · rename_i h; simp at h; exact absurd h.1 hx1
    · rfl
  have hpr := pr_parse (f := f) hn hsd hp0
  have hemp : (listText cs).isEmpty = false := by rw [hx]; rfl
  rw [hemp] at hpr
  refine ⟨_, _, by rw [ht]; exact hpr, by rw [ht]; exact hp, rfl, ?_⟩
  have hd : PackageRequirement.display ⟨name, if false = true then none else some (listText cs), f == .weak, f == .conflict⟩ =
      f.text ++ (name ++ c!"-" ++ listText cs) := by
    cases f <;> simp [PackageRequirement.display, Flag.text]
  unfold toResolver
  rw [hd]
  have e : Requirement.parse (f.text ++ (name ++ c!"-" ++ listText cs)) = some ⟨name ++ c!"-", some c', f == .weak, f == .conflict, [], [], none⟩ := by
    cases f <;> simpa [Flag.text] using hp'
  rw [e]; rfl

/-- A repository with python 3.9. -/
def pythonWorld : World := solverWorld [mkPkg c!"python" c!"3.9" []]

/-- C199 does not hold for requests with an operator: a context for `python>=3.9` has no packages although there is a python 3.9,
which the solve command finds. -/
theorem C199_context_false :
    (∃ c, newContext pythonWorld [c!"python>=3.9"] none = .ok c ∧ c.success = true ∧ c.packages = []) ∧
    ∃ a, pythonWorld.solve true false true [c!"/packages"] ((parseAll [c!"python>=3.9"]).getD []) = some a ∧
      a.resolved.map (fun e => e.package.name) = [c!"python"] := by
  refine ⟨⟨_, rfl, rfl, by decide +kernel⟩, ?_⟩
  refine ⟨_, rfl, by decide +kernel⟩

/-- C199 does not hold for requests with a namespace or a blank in front: what is cut off is not the name. -/
theorem C199_namespace_false :
    (∃ p, PackageRequirement.parse c!"ns::python-3" = .ok p ∧ p.display = c!"python-thon-3") ∧
    ∃ p, PackageRequirement.parse c!" python-3" = .ok p ∧ p.display = c!"python-n-3" :=
  ⟨⟨_, rfl, by decide⟩, ⟨_, rfl, by decide⟩⟩

/-! ## C200 -/

/-- C200: a context that is made says that it succeeded and gives no reason of failure, whatever the resolver could not find; it
holds the packages the resolver found, in their order.  None is made exactly if a request cannot be read or the resolver fails. -/
theorem C200_success (w : World) (ts : List Str) (paths : Option (List Str)) :
    (∀ c, newContext w ts paths = .ok c → c.success = true ∧ c.failure = none ∧
      ∃ ps a, readAll ts = .ok ps ∧ w.solve false false true ((paths.getD w.packagesPath).filter w.exists_) (ps.map toResolver) = some a ∧
        c.requirements = ps ∧ c.packages = a.resolved.map (·.package)) ∧
    (newContext w ts paths = .err ↔ readAll ts = .err ∨ ∃ ps, readAll ts = .ok ps ∧
      w.solve false false true ((paths.getD w.packagesPath).filter w.exists_) (ps.map toResolver) = none) := by
  unfold newContext
  cases hr : readAll ts with
  | err => simp
  | panic => simp
  | ok ps =>
    simp only [World.resolver, Config.default, World.repos]
    cases hs : w.solve false false true ((paths.getD w.packagesPath).filter w.exists_) (ps.map toResolver) with
    | none => simp [hs]
    | some a =>
      simp only [Outcome.ok.injEq, reduceCtorEq, false_or, false_iff, not_exists, not_and]
      refine ⟨?_, fun x hx => by rw [← hx, hs]; simp⟩
      rintro c rfl
      exact ⟨rfl, rfl, ps, a, rfl, hs, rfl, rfl⟩

theorem readAll_split (ts : List Str) :
    (readAll ts = .err ↔ ∃ pre t post, ts = pre ++ t :: post ∧ PackageRequirement.parse t = .err ∧
      ∀ s ∈ pre, ∃ p, PackageRequirement.parse s = .ok p) ∧
    (∀ ps, readAll ts = .ok ps ↔ List.Forall₂ (fun t p => PackageRequirement.parse t = .ok p) ts ps) := by
  induction ts with
  | nil =>
    simp only [readAll]
    exact ⟨by simp, fun ps => by simp only [Outcome.ok.injEq, List.forall₂_nil_left_iff]; exact eq_comm⟩
  | cons t ts ih =>
    rw [readAll]
    constructor
    · cases hp : PackageRequirement.parse t with
      | err => simp only [true_iff]; exact ⟨[], t, ts, rfl, hp, by simp⟩
      | panic =>
        simp only [reduceCtorEq, false_iff]
        rintro ⟨pre, x, post, h1, h2, h3⟩
        cases pre with
        | nil => simp at h1; rw [← h1.1, hp] at h2; cases h2
        | cons y pre => simp at h1; obtain ⟨p, h⟩ := h3 y (by simp); rw [← h1.1, hp] at h; cases h
      | ok p =>
        have e : ((match readAll ts with
            | .ok ps => (.ok (p :: ps) : Outcome (List PackageRequirement))
            | .err => .err
            | .panic => .panic) = .err) ↔ readAll ts = .err := by
          cases readAll ts <;> simp
        refine e.trans (ih.1.trans ?_)
        constructor
        · rintro ⟨pre, x, post, h1, h2, h3⟩
          refine ⟨t :: pre, x, post, by rw [h1]; rfl, h2, ?_⟩
          intro s hs
          rcases List.mem_cons.mp hs with rfl | hs
          · exact ⟨p, hp⟩
          · exact h3 s hs
        · rintro ⟨pre, x, post, h1, h2, h3⟩
          cases pre with
          | nil => simp at h1; rw [← h1.1, hp] at h2; cases h2
          | cons y pre => simp at h1; exact ⟨pre, x, post, h1.2, h2, fun s hs => h3 s (by simp [hs])⟩
    · intro ps
      rw [List.forall₂_cons_left_iff]
      cases hp : PackageRequirement.parse t with
      | err => simp
      | panic => simp
      | ok p =>
        simp only [Outcome.ok.injEq]
        constructor
        · intro h
          cases hr : readAll ts with
          | err => simp [hr] at h
          | panic => simp [hr] at h
          | ok qs => simp [hr] at h; exact ⟨p, qs, rfl, (ih.2 qs).mp hr, h.symm⟩
        · rintro ⟨b, u, rfl, h1, rfl⟩
          simp [(ih.2 u).mpr h1]

/-- C200: an environment is always made, unless reading a request panics; it says that it succeeded exactly if all requests can
be read and the resolver answers, and otherwise has no packages, variables or scripts. -/
theorem C200_env (w : World) (ts : List Str) (shell : Option Str) (paths : Option (List Str)) :
    rezEnv w ts shell paths ≠ .err ∧ (rezEnv w ts shell paths = .panic ↔ readAll ts = .panic) ∧
    ∀ e, rezEnv w ts shell paths = .ok e → e.packages = ts ∧ e.failed = !e.success ∧
      (e.success = true ↔ ∃ ps a, readAll ts = .ok ps ∧
        w.solve false false true ((paths.getD w.packagesPath).filter w.exists_) (ps.map toResolver) = some a ∧
        e.resolved = a.resolved.map (·.package)) ∧
      (e.success = false → e.resolved = [] ∧ e.vars = [] ∧ e.scripts = []) := by
  unfold rezEnv
  cases hr : readAll ts with
  | err => simp [RezEnv.failure]
  | panic => simp
  | ok ps =>
    simp only [World.resolver, Config.default, World.repos]
    cases hs : w.solve false false true ((paths.getD w.packagesPath).filter w.exists_) (ps.map toResolver) with
    | none => simp [hs, RezEnv.failure]
    | some a =>
      simp only [ne_eq, reduceCtorEq, not_false_eq_true, Outcome.ok.injEq, true_and]
      rintro e rfl
      exact ⟨rfl, rfl, by simp; exact ⟨a, hs, rfl⟩, by simp⟩

/-- C200 does not hold in the usual sense: a context for a package that does not exist says that it succeeded. -/
theorem C200_missing_false :
    (∃ c, newContext pythonWorld [c!"maya-2024"] none = .ok c ∧ c.success = true ∧ c.failure = none ∧ c.packages = []) ∧
    ∃ e, rezEnv pythonWorld [c!"maya-2024"] none none = .ok e ∧ e.success = true ∧ e.resolved = [] :=
  ⟨⟨_, rfl, rfl, rfl, by decide +kernel⟩, ⟨_, rfl, rfl, by decide +kernel⟩⟩

/-- A context for a package that exists holds it. -/
example : ∃ c, newContext pythonWorld [c!"python-3.9"] none = .ok c ∧ c.packages.map (·.name) = [c!"python"] :=
  ⟨_, rfl, by decide +kernel⟩

/-! ## C201 -/

/-- C201: what a solver answers depends on the requirements alone; constraints, excluded packages, platform and architecture of
the request make no difference, and of the settings only whether it is strict, takes pre-releases and prefers the latest. -/
theorem C201_request (w : World) (c c' : Config) (repos : Option (List Str)) (r r' : Request)
    (hr : r.requirements = r'.requirements) (h1 : c.strict = c'.strict) (h2 : c.allowPrerelease = c'.allowPrerelease)
    (h3 : c.preferLatest = c'.preferLatest) : depSolve w c repos r = depSolve w c' repos r' := by
  unfold depSolve World.resolver
  rw [hr, h1, h2, h3]

/-- C201: a solver has the packages the resolver finds, in their order, and says that conflicts were resolved exactly if there
were any; without repositories it has none, whatever is asked for. -/
theorem C201_answer (w : World) (c : Config) (r : Request) :
    depSolve w c none r = some ⟨[], false⟩ ∧
    ∀ repos, (∀ x, depSolve w c (some repos) r = some x ↔
      ∃ a, w.solve c.strict c.allowPrerelease c.preferLatest repos (r.requirements.map toResolver) = some a ∧
        x.packages = a.resolved.map (·.package) ∧ (x.conflictsResolved = true ↔ a.conflicts ≠ [])) := by
  refine ⟨rfl, fun repos x => ?_⟩
  simp only [depSolve, World.resolver, Option.map_eq_some_iff]
  constructor
  · rintro ⟨a, h, rfl⟩; exact ⟨a, h, rfl, by simp⟩
  · rintro ⟨a, h, h1, h2⟩
    refine ⟨a, h, ?_⟩
    obtain ⟨ps, b⟩ := x
    simp only at h1 h2
    rw [h1]
    congr 1
    cases b
    · simp at h2; simp [h2]
    · simp at h2; simp [h2]

/-- C201 does not hold in the usual sense: a solver that is told to leave out python, or to take it only below version 3, still
has python 3.9; one without repositories has nothing and does not fail. -/
theorem C201_excluded_false :
    (∃ x, depSolve pythonWorld .default (some []) ⟨[⟨c!"python", none, false, false⟩], [⟨c!"python", some c!"2", false, false⟩],
      [c!"python"], some c!"windows", none⟩ = some x ∧ x.packages.map Pkg.key = [c!"python-3.9"]) ∧
    depSolve pythonWorld { Config.default with strict := true } none ⟨[⟨c!"python", none, false, false⟩], [], [], none, none⟩ = some ⟨[], false⟩ :=
  ⟨⟨_, rfl, by decide +kernel⟩, rfl⟩

/-- C201: the settings of a `Solver` of the Python module make no difference: it makes the context that is made with its paths. -/
theorem C201_settings (w : World) (packagesPath : Option (List Str)) (attempts workers : Option Nat) (latest parallel : Option Bool)
    (ts : List Str) :
    (PySolver.new w packagesPath attempts latest parallel workers).solve w ts = newContext w ts (some (packagesPath.getD w.packagesPath)) := rfl

/-- Two versions of python. -/
def pythonsWorld : World := solverWorld [mkPkg c!"python" c!"3.9" [], mkPkg c!"python" c!"2.7" []]

/-- C201 does not hold in the usual sense: told not to prefer the latest, a `Solver` takes the latest; the resolver with that
setting would not. -/
theorem C201_latest_false :
    (∃ c, (PySolver.new pythonsWorld none none (some false) none none).solve pythonsWorld [c!"python"] = .ok c ∧
      c.packages.map Pkg.key = [c!"python-3.9"]) ∧
    ∃ a, pythonsWorld.solve false false false [] [bare c!"python"] = some a ∧
      a.resolved.map (fun e => e.package.key) = [c!"python-2.7"] :=
  ⟨⟨_, rfl, by decide +kernel⟩, ⟨_, rfl, by decide +kernel⟩⟩

end Rez.Props
