import Verif.Spec.SolveApi
import Verif.Props.SolveApi
import Verif.Props.Scanner
import Verif.Props.Search
/-!
# C202–C205: results of resolving, the solve command, environments and families
-/
namespace Rez.Props
open Rez Rez.Spec Rez.SolveApi Rez.Spec.SolveApi Rez.Spec.Search ScannerLemmas SearchLemmas

/-! ## C202 -/

/-- C202: a package is contained exactly if one of that name was resolved; the one that is given is the first of that name. -/
theorem C202_get (r : Resolution) (name : Str) :
    (r.contains name = true ↔ ∃ p ∈ r.packages, p.name = name) ∧
    (∀ p, r.get name = some p ↔ ∃ pre post, r.packages = pre ++ p :: post ∧ p.name = name ∧ ∀ q ∈ pre, q.name ≠ name) ∧
    (r.get name = none ↔ ∀ p ∈ r.packages, p.name ≠ name) := by
  refine ⟨by simp [Resolution.contains], fun p => ?_, by simp [Resolution.get]⟩
  unfold Resolution.get
  rw [List.find?_eq_some_iff_append]
  constructor
  · rintro ⟨h1, pre, post, h2, h3⟩; exact ⟨pre, post, h2, by simpa using h1, fun q hq => by simpa using h3 q hq⟩
  · rintro ⟨pre, post, h2, h1, h3⟩; exact ⟨by simpa using h1, pre, post, h2, fun q hq => by simpa using h3 q hq⟩

theorem solve_tokens_char {c : Char} (h1 : c ≠ '*') (h2 : c ≠ '.') (s : Str) : SolveApi.tokens (c :: s) = .lit c :: SolveApi.tokens s := by
  rw [SolveApi.tokens]
  · intro e; exact h1 e
  · intro e; exact h2 e

theorem solve_fits_iff (p s : Str) : Scanner.hits (SolveApi.tokens p) s = true ↔ Fits p s := by
  induction p generalizing s with
  | nil =>
    rw [SolveApi.tokens, Scanner.hits, List.isEmpty_iff]
    constructor
    · rintro rfl; exact .nil
    · intro h; cases h; rfl
  | cons c p ih =>
    by_cases h1 : c = '*'
    · subst h1
      rw [SolveApi.tokens, Scanner.hits, many_iff]
      constructor
      · rintro ⟨a, b, rfl, ha, hb⟩
        refine .star (fun hn => ?_) ((ih b).mp hb)
        have := List.all_eq_true.mp ha _ hn
        simp at this
      · intro h
        generalize hp : '*' :: p = p' at h
        cases h with
        | nil => cases hp
        | star ha h =>
          simp at hp; subst hp
          refine ⟨_, _, rfl, ?_, (ih _).mpr h⟩
          rw [List.all_eq_true]; intro x hx
          simp only [bne_iff_ne, ne_eq]; rintro rfl; exact ha hx
        | dot => simp at hp
        | char h1 => simp at hp; exact absurd hp.1.symm h1
    · by_cases h2 : c = '.'
      · subst h2
        rw [SolveApi.tokens, Scanner.hits]
        constructor
        · cases s with
          | nil => simp
          | cons d r => intro h; simp at h; exact .dot h.1 ((ih r).mp h.2)
        · intro h
          generalize hp : '.' :: p = p' at h
          cases h with
          | nil => cases hp
          | star => simp at hp
          | dot hd h => simp at hp; subst hp; simp [hd, (ih _).mpr h]
          | char _ h2 => simp at hp; exact absurd hp.1.symm h2
      · rw [solve_tokens_char h1 h2, Scanner.hits]
        constructor
        · cases s with
          | nil => simp
          | cons d r => intro h; simp at h; obtain ⟨rfl, h⟩ := h; exact .char h1 h2 ((ih r).mp h)
        · intro h
          generalize hp : c :: p = p' at h
          cases h with
          | nil => cases hp
          | star => simp at hp; exact absurd hp.1 h1
          | dot => simp at hp; exact absurd hp.1 h2
          | char _ _ h => simp at hp; obtain ⟨rfl, rfl⟩ := hp; simp [(ih _).mpr h]

/-- C202: by a pattern exactly those packages are found, in their order, whose names it fits; one without `*` is a name, and `*`
alone fits every name. -/
theorem C202_find (r : Resolution) (pattern : Str) :
    (r.find pattern).Sublist r.packages ∧
    ∀ p, p ∈ r.find pattern ↔ p ∈ r.packages ∧
      (pattern = c!"*" ∨ ('*' ∈ pattern ∧ Fits pattern p.name) ∨ ('*' ∉ pattern ∧ p.name = pattern)) := by
  refine ⟨List.filter_sublist, fun p => ?_⟩
  simp only [Resolution.find, List.mem_filter]
  refine and_congr_right fun _ => ?_
  unfold fits
  by_cases h1 : pattern = c!"*"
  · simp [h1]
  · by_cases h2 : '*' ∈ pattern
    · simp [h1, h2, solve_fits_iff]
    · simp [h1, h2]

/-- C202 does not hold for a `.`: a pattern for names that begin with `lib.` finds a package `libxml`. -/
theorem C202_dot_false : (Resolution.find ⟨[⟨c!"libxml", none, none, [], [], none, none⟩], false⟩ c!"lib.*").map (·.name) = [c!"libxml"] := by
  decide

theorem noTwice_iff (ps : List Pkg) (seen : List Str) :
    noTwice seen ps = true ↔ (ps.map Pkg.key).Nodup ∧ ∀ p ∈ ps, p.key ∉ seen := by
  induction ps generalizing seen with
  | nil => simp [noTwice]
  | cons p ps ih =>
    rw [noTwice]
    by_cases h : p.key ∈ seen
    · simp [h]
    · simp only [List.contains_iff_mem, h, if_false, ih, List.map_cons, List.nodup_cons, List.mem_cons, not_or, List.mem_map, not_exists,
        not_and, forall_eq_or_imp, not_false_eq_true, true_and]
      constructor
      · rintro ⟨h1, h2⟩; exact ⟨⟨fun q hq e => (h2 q hq).1 e, h1⟩, fun q hq => (h2 q hq).2⟩
      · rintro ⟨⟨h1, h2⟩, h3⟩; exact ⟨h2, fun q hq => ⟨fun e => h1 q hq e, h3 q hq⟩⟩

/-- C202: a result is valid exactly if every package is and no two are written the same, `name-version` or the name alone. -/
theorem C202_validate (w : World) (r : Resolution) :
    r.validate w = true ↔ (r.packages.map Pkg.key).Nodup ∧ ∀ p ∈ r.packages, w.valid p = true := by
  simp [Resolution.validate, noTwice_iff]

/-- C202 does not hold in the usual sense: two versions of one package are a valid result; and two packages of different names,
of which one has no version, may not be. -/
theorem C202_family_false :
    (∃ u v, Version.parse c!"2.7" = some u ∧ Version.parse c!"3.9" = some v ∧
      Resolution.validate pythonWorld ⟨[⟨c!"python", some u, none, [], [], none, none⟩, ⟨c!"python", some v, none, [], [], none, none⟩], false⟩ = true) ∧
    ∃ u, Version.parse c!"1" = some u ∧
      Resolution.validate pythonWorld ⟨[⟨c!"a", some u, none, [], [], none, none⟩, ⟨c!"a-1", none, none, [], [], none, none⟩], false⟩ = false :=
  ⟨⟨_, _, rfl, rfl, by decide⟩, ⟨_, rfl, by decide⟩⟩

theorem last_append {α β : Type} {f : α → Option β} {l : List α} {x : α} {b : β} :
    Last f (l ++ [x]) b ↔ f x = some b ∨ (f x = none ∧ Last f l b) := by
  constructor
  · generalize hl : l ++ [x] = l'
    rintro ⟨pre, y, post, b, h1, h2⟩
    rcases List.eq_nil_or_concat post with rfl | ⟨post', z, rfl⟩
    · have := List.append_inj' hl rfl
      simp at this; rw [this.2]; exact .inl h1
    · rw [List.concat_eq_append, ← List.cons_append, ← List.append_assoc] at hl
      have := List.append_inj' hl rfl
      simp at this
      obtain ⟨rfl, rfl⟩ := this
      exact .inr ⟨h2 x (by simp), pre, y, post', b, h1, fun z hz => h2 z (by simp [hz])⟩
  · rintro (h | ⟨h, ⟨pre, y, post, b, h1, h2⟩⟩)
    · exact ⟨l, x, [], b, h, by simp⟩
    · have : pre ++ y :: post ++ [x] = pre ++ y :: (post ++ [x]) := by simp
      rw [this]
      refine ⟨pre, y, post ++ [x], b, h1, fun z hz => ?_⟩
      rcases List.mem_append.mp hz with hz | hz
      · exact h2 z hz
      · simp at hz; rw [hz]; exact h

theorem last_nil {α β : Type} {f : α → Option β} {b : β} : ¬ Last f [] b := by
  generalize h : ([] : List α) = l
  rintro ⟨pre, x, post, b, h1, h2⟩
  simp at h

/-- A map made by inserting: the last entry for a key counts. -/
theorem fold_last {α : Type} (step : List (Str × Str) → α → List (Str × Str)) (f : α → Str → Option Str)
    (hs : ∀ m x k, mget (step m x) k = (f x k).or (mget m k)) (l : List α) (k v : Str) :
    mget (l.foldl step []) k = some v ↔ Last (fun x => f x k) l v := by
  induction l using List.reverseRecOn generalizing v with
  | nil => simp [last_nil]
  | append_singleton l x ih =>
    rw [List.foldl_append, List.foldl_cons, List.foldl_nil, hs, last_append, ← ih]
    cases f x k <;> simp

/-- C202: the summary gives for a name the version of the last package of that name, `latest` if it has none. -/
theorem C202_versions (r : Resolution) (name v : Str) :
    mget r.versions name = some v ↔
      Last (fun p => if p.name = name then some (match p.version with | some v => v.asStr | none => c!"latest") else none) r.packages v := by
  unfold Resolution.versions
  refine fold_last _ (fun (p : Pkg) k => if p.name = k then some (match p.version with | some v => v.asStr | none => c!"latest") else none) ?_ _ _ _
  intro m x k
  rw [mget_mset]
  by_cases h : x.name = k
  · simp only [h, if_true, Option.some_or]; cases x.version <;> rfl
  · simp [h, Ne.symm h]

/-- C202: the variable `NAME_COMMANDS` has the commands of the last package of a name that is `NAME` in capitals. -/
theorem C202_commands (upper : Str → Str) (r : Resolution) (key v : Str) :
    mget (r.specVars upper) key = some v ↔
      Last (fun p => if upper p.name ++ c!"_COMMANDS" = key then p.commands else none) r.packages v := by
  unfold Resolution.specVars
  refine fold_last _ (fun (p : Pkg) k => if upper p.name ++ c!"_COMMANDS" = k then p.commands else none) ?_ _ _ _
  intro m x k
  cases hc : x.commands with
  | none => simp
  | some c =>
    rw [mget_mset]
    by_cases h : upper x.name ++ c!"_COMMANDS" = k
    · simp [h]
    · simp [h, Ne.symm h]

/-- C202 does not hold for names that differ in case only: the commands of one package are lost. -/
theorem C202_case_false :
    Resolution.specVars (fun s => s.map Rex.upperChar)
      ⟨[⟨c!"Foo", none, none, [], [], some c!"one", none⟩, ⟨c!"foo", none, none, [], [], some c!"two", none⟩], false⟩ = [(c!"FOO_COMMANDS", c!"two")] := by
  decide

/-- C202: the tools are those of all packages, in ascending order, none twice. -/
theorem C202_tools (r : Resolution) :
    Ascending r.allTools ∧ ∀ t, t ∈ r.allTools ↔ ∃ p ∈ r.packages, t ∈ p.tools := by
  obtain ⟨h1, h2⟩ := dedup_spec _ (sortStr_sorted (r.packages.flatMap Pkg.tools))
  refine ⟨h1, fun t => ?_⟩
  unfold Resolution.allTools
  rw [h2, (sortStr_perm _).mem_iff]
  simp

/-- Two packages with tools, found by name and pattern. -/
example : let r : Resolution := ⟨[⟨c!"maya", none, none, [], [c!"render", c!"maya"], none, none⟩, ⟨c!"mayapy", none, none, [], [c!"maya"], none, none⟩], false⟩
    r.contains c!"maya" = true ∧ (r.find c!"maya*").length = 2 ∧ r.allTools = [c!"maya", c!"render"] ∧ r.validate pythonWorld = true := by
  decide

/-! ## C203 -/

/-- C203: the command succeeds exactly if all requirements can be read and the resolver answers; if one cannot be read, it says
only what it was asked for. -/
theorem C203_ends (w : World) (args : Args) :
    ((solveCmd w args).1 = true ↔ ∃ rs, Reads args.requirements rs ∧
      (w.solve args.strict false true (if args.repository = [] then w.packagesPath.filter w.exists_ else args.repository) rs).isSome = true) ∧
    ((∀ rs, ¬ Reads args.requirements rs) →
      solveCmd w args = (false, [.line (c!"Resolving dependencies for: " ++ joinWith c!", " args.requirements)])) := by
  have hrepo : solveRepos w args = if args.repository = [] then w.packagesPath.filter w.exists_ else args.repository := by
    simp [solveRepos, List.isEmpty_iff]
  unfold solveCmd
  cases hp : parseAll args.requirements with
  | none =>
    have hn : ∀ rs, ¬ Reads args.requirements rs := by
      intro rs hr; rw [parseAll_iff.mpr hr] at hp; cases hp
    exact ⟨by simp [hn], fun _ => rfl⟩
  | some rs =>
    have hr := parseAll_iff.mp hp
    refine ⟨?_, fun hn => absurd hr (hn rs)⟩
    have hu : ∀ rs', Reads args.requirements rs' → rs' = rs := by
      intro rs' h; have := parseAll_iff.mpr h; rw [hp] at this; exact (Option.some.inj this).symm
    have e : w.resolver (solveConfig args) (solveRepos w args) rs = w.solve args.strict false true (solveRepos w args) rs := rfl
    rw [← hrepo]
    simp only [e]
    constructor
    · intro h
      refine ⟨rs, hr, ?_⟩
      cases hs : w.solve args.strict false true (solveRepos w args) rs with
      | none => simp [hs] at h
      | some a => rfl
    · rintro ⟨rs', h1, h2⟩
      rw [hu rs' h1] at h2
      obtain ⟨a, ha⟩ := Option.isSome_iff_exists.mp h2
      simp [ha]

/-- C203: what the command shows after the resolver has answered: in the formats `summary` and `detailed` the lines of the summary
first; in the format `json` one value; in any other format a warning and no part of the result, without failing. -/
theorem C203_format (w : World) (args : Args) (rs : List Requirement) (a : Answer) (h : Reads args.requirements rs)
    (ha : w.solve args.strict false true (if args.repository = [] then w.packagesPath.filter w.exists_ else args.repository) rs = some a) :
    ∃ pre post, solveCmd w args = (true, pre ++ post) ∧ (∀ x ∈ pre, (∃ s, x = .line s) ∨ ∃ b r q, x = .solve b r q) ∧ pre.length = 4 ∧
      (args.format = c!"summary" → post = (summary args.verbose a).map .line) ∧
      (args.format = c!"detailed" → ∃ more, post = (summary args.verbose a ++ more).map .line) ∧
      (args.format = c!"json" → ∃ r f c, post = [.json r f c]) ∧
      (args.format ∉ [c!"summary", c!"detailed", c!"json"] → ∃ s, post = [.warn s]) := by
  have hrepo : solveRepos w args = if args.repository = [] then w.packagesPath.filter w.exists_ else args.repository := by
    simp [solveRepos, List.isEmpty_iff]
  rw [← hrepo] at ha
  have e : w.resolver (solveConfig args) (solveRepos w args) rs = some a := ha
  unfold solveCmd
  simp only [parseAll_iff.mpr h, e]
  refine ⟨_, display w args a, rfl, ?_, rfl, ?_, ?_, ?_, ?_⟩
  · intro x hx
    simp only [List.mem_cons, List.not_mem_nil, or_false] at hx
    rcases hx with rfl | rfl | rfl | rfl
    · exact .inl ⟨_, rfl⟩
    · exact .inl ⟨_, rfl⟩
    · exact .inl ⟨_, rfl⟩
    · exact .inr ⟨_, _, _, rfl⟩
  · intro hf; simp [display, hf]
  · intro hf
    refine ⟨(if a.resolved.isEmpty then [] else c!"\n=== Package Details ===" :: a.resolved.flatMap (detailLines w)), ?_⟩
    unfold display
    rw [if_neg (by rw [hf]; decide), if_pos hf]
    rfl
  · intro hf
    refine ⟨a.resolved.map fun e => (e.package.name, e.package.version.map w.debug, e.requested, e.requiredBy),
      a.failed.map Requirement.display, a.conflicts.map fun c => (c.name, c.requirements.map Requirement.display, c.sources), ?_⟩
    unfold display
    rw [if_neg (by rw [hf]; decide), if_neg (by rw [hf]; decide), if_pos hf]
  · intro hf
    simp only [List.mem_cons, List.not_mem_nil, or_false, not_or] at hf
    refine ⟨c!"Unknown format: " ++ args.format ++ c!". Available formats: summary, detailed, json", ?_⟩
    unfold display
    rw [if_neg hf.1, if_neg hf.2.1, if_neg hf.2.2]

theorem entryLine_eq (e : Entry) : entryLine e = entryText e := by
  unfold entryLine entryText
  cases e.requested <;> simp

/-- C203: the summary shows every resolved package with its version and why it is there, every failed requirement and every
conflict, in their order, and nothing else. -/
theorem C203_summary (verbose : Bool) (a : Answer) :
    ∃ rest, summary verbose a = c!"\n=== Resolution Summary ===" :: rest ∧ (∀ l, l ∈ rest ↔ SummaryLine verbose a l) ∧
      (a.resolved.map entryText ++ (a.failed.map fun r => c!"  " ++ r.display) ++
        (if a.resolved = [] ∧ a.failed = [] then [] else a.conflicts.map fun c => c!"  Package: " ++ c.name)).Sublist rest := by
  refine ⟨_, rfl, ?_, ?_⟩
  · intro l
    by_cases h0 : a.resolved = [] ∧ a.failed = []
    · obtain ⟨h1, h2⟩ := h0
      simp only [h1, h2, List.isEmpty_nil, Bool.and_self, if_true, List.mem_singleton]
      constructor
      · rintro rfl; exact .nothing h1 h2
      · intro h
        cases h with
        | nothing => rfl
        | resolvedHead h => exact absurd h1 h
        | requested h => rw [h1] at h; cases h
        | dependency h => rw [h1] at h; cases h
        | requiredBy _ h => rw [h1] at h; cases h
        | failedHead h => exact absurd h2 h
        | failed h => rw [h2] at h; cases h
        | conflictHead h => simp [h1, h2] at h
        | conflict h => simp [h1, h2] at h
        | requirements h => simp [h1, h2] at h
        | sources h => simp [h1, h2] at h
    · have hne : a.resolved ≠ [] ∨ a.failed ≠ [] := by
        by_cases h : a.resolved = []
        · exact .inr fun h' => h0 ⟨h, h'⟩
        · exact .inl h
      have hb : (a.resolved.isEmpty && a.failed.isEmpty) = false := by
        rw [Bool.eq_false_iff]; intro h
        simp only [Bool.and_eq_true, List.isEmpty_iff] at h; exact h0 h
      rw [if_neg (by rw [hb]; decide)]
      simp only [List.mem_append]
      constructor
      · rintro ((h | h) | h)
        · split at h
          · cases h
          · rename_i hr
            simp only [List.isEmpty_iff] at hr
            rcases List.mem_cons.mp h with rfl | h
            · exact .resolvedHead hr
            · obtain ⟨e, he, h⟩ := List.mem_flatMap.mp h
              rw [entryLines, entryLine_eq] at h
              rcases List.mem_cons.mp h with rfl | h
              · unfold entryText
                cases hq : e.requested with
                | true => exact .requested he hq
                | false => exact .dependency he hq
              · split at h
                · rename_i hv
                  simp only [Bool.and_eq_true, Bool.not_eq_true', List.isEmpty_eq_false_iff] at hv
                  rw [List.mem_singleton.mp h]; exact .requiredBy hv.1 he hv.2
                · cases h
        · split at h
          · cases h
          · rename_i hr
            simp only [List.isEmpty_iff] at hr
            rcases List.mem_cons.mp h with rfl | h
            · exact .failedHead hr
            · obtain ⟨r, hr, rfl⟩ := List.mem_map.mp h; exact .failed hr
        · split at h
          · cases h
          · rename_i hr
            simp only [List.isEmpty_iff] at hr
            rcases List.mem_cons.mp h with rfl | h
            · exact .conflictHead hne hr
            · obtain ⟨c, hc, h⟩ := List.mem_flatMap.mp h
              unfold conflictLines at h
              rcases List.mem_append.mp h with h | h
              · simp only [List.mem_cons, List.not_mem_nil, or_false] at h
                rcases h with rfl | rfl
                · exact .conflict hne hc
                · exact .requirements hne hc
              · split at h
                · cases h
                · rename_i hs
                  simp only [List.isEmpty_iff] at hs
                  rw [List.mem_singleton.mp h]; exact .sources hne hc hs
      · intro h
        have inEntry : ∀ {e : Entry} {l : Str}, e ∈ a.resolved → l ∈ entryLines verbose e →
            l ∈ (if a.resolved.isEmpty = true then [] else
              (c!"✅ Resolved packages (" ++ decimal a.resolved.length ++ c!"):") :: a.resolved.flatMap (entryLines verbose)) := by
          intro e l he hl
          rw [if_neg (by rw [List.isEmpty_iff]; rintro h; rw [h] at he; cases he)]
          exact List.mem_cons_of_mem _ (List.mem_flatMap.mpr ⟨e, he, hl⟩)
        have inConflict : ∀ {c : Conflict} {l : Str}, c ∈ a.conflicts → l ∈ conflictLines c →
            l ∈ (if a.conflicts.isEmpty = true then [] else
              (c!"\n⚠️  Conflicts encountered (" ++ decimal a.conflicts.length ++ c!"):") :: a.conflicts.flatMap conflictLines) := by
          intro e l he hl
          rw [if_neg (by rw [List.isEmpty_iff]; rintro h; rw [h] at he; cases he)]
          exact List.mem_cons_of_mem _ (List.mem_flatMap.mpr ⟨e, he, hl⟩)
        cases h with
        | nothing h1 h2 => exact absurd ⟨h1, h2⟩ h0
        | resolvedHead h => left; left; rw [if_neg (by rw [List.isEmpty_iff]; exact h)]; exact List.mem_cons_self
        | requested h hq =>
          left; left; refine inEntry h ?_
          rw [entryLines, entryLine_eq, entryText, hq]; exact List.mem_cons_self
        | dependency h hq =>
          left; left; refine inEntry h ?_
          rw [entryLines, entryLine_eq, entryText, hq]; exact List.mem_cons_self
        | requiredBy hv h hq =>
          left; left; refine inEntry h ?_
          rw [entryLines]; refine List.mem_cons_of_mem _ ?_
          rw [if_pos (by simp [hv, hq])]; exact List.mem_cons_self
        | failedHead h => left; right; rw [if_neg (by rw [List.isEmpty_iff]; exact h)]; exact List.mem_cons_self
        | failed h =>
          left; right
          rw [if_neg (by rw [List.isEmpty_iff]; rintro h'; rw [h'] at h; cases h)]
          exact List.mem_cons_of_mem _ (List.mem_map.mpr ⟨_, h, rfl⟩)
        | conflictHead _ h => right; rw [if_neg (by rw [List.isEmpty_iff]; exact h)]; exact List.mem_cons_self
        | conflict _ h => right; refine inConflict h ?_; simp [conflictLines]
        | requirements _ h => right; refine inConflict h ?_; simp [conflictLines]
        | sources _ h hs => right; refine inConflict h ?_; simp [conflictLines, hs]
  · by_cases h0 : a.resolved = [] ∧ a.failed = []
    · simp [h0.1, h0.2]
    · have hb : (a.resolved.isEmpty && a.failed.isEmpty) = false := by
        rw [Bool.eq_false_iff]; intro h
        simp only [Bool.and_eq_true, List.isEmpty_iff] at h; exact h0 h
      rw [if_neg h0, if_neg (by rw [hb]; decide)]
      refine List.Sublist.append (List.Sublist.append ?_ ?_) ?_
      · split
        · rename_i h; rw [List.isEmpty_iff] at h; simp [h]
        · refine List.Sublist.cons _ ?_
          generalize a.resolved = l
          induction l with
          | nil => simp
          | cons e l ih =>
            rw [List.map_cons, List.flatMap_cons, entryLines, entryLine_eq, List.cons_append]
            exact List.Sublist.cons_cons _ (ih.trans (List.sublist_append_right _ _))
      · split
        · rename_i h; rw [List.isEmpty_iff] at h; simp [h]
        · exact List.sublist_cons_self _ _
      · split
        · rename_i h; rw [List.isEmpty_iff] at h; simp [h]
        · refine List.Sublist.cons _ ?_
          generalize a.conflicts = l
          induction l with
          | nil => simp
          | cons e l ih =>
            rw [List.map_cons, List.flatMap_cons, conflictLines, List.cons_append, List.cons_append]
            exact List.Sublist.cons_cons _ (ih.trans (List.sublist_append_right _ _))

theorem detailLines_iff (w : World) (e : Entry) (l : Str) : l ∈ detailLines w e ↔ DetailLine w.debug e l := by
  simp only [detailLines, List.mem_append, List.mem_singleton]
  constructor
  · rintro (((((rfl | h) | h) | h) | h) | h)
    · exact .name
    · split at h
      · rename_i hv; rw [List.mem_singleton.mp h]; exact .version hv
      · cases h
    · split at h
      · rename_i hv; rw [List.mem_singleton.mp h]; exact .description hv
      · cases h
    · split at h
      · cases h
      · rename_i hv; rw [List.isEmpty_iff] at hv; rw [List.mem_singleton.mp h]; exact .requires hv
    · split at h
      · cases h
      · rename_i hv; rw [List.isEmpty_iff] at hv; rw [List.mem_singleton.mp h]; exact .tools hv
    · split at h
      · rename_i hv; rw [List.mem_singleton.mp h]; exact .satisfies hv
      · cases h
  · intro h
    cases h with
    | name => simp
    | version h => simp [h]
    | description h => simp [h]
    | requires h => simp [h]
    | tools h => simp [h]
    | satisfies h => simp [h]

/-- C203: in the format `detailed` the summary is followed, if there are resolved packages, by a heading and, for each of them in
their order, by its name, version, description, requirements, tools and the requirement it satisfies, as far as there are any. -/
theorem C203_details (w : World) (args : Args) (a : Answer) (hf : args.format = c!"detailed") :
    (a.resolved = [] → display w args a = (summary args.verbose a).map .line) ∧
    (a.resolved ≠ [] → ∃ parts : List (List Str),
      display w args a = (summary args.verbose a ++ c!"\n=== Package Details ===" :: parts.flatten).map .line ∧
      List.Forall₂ (fun e part => part.head? = some (c!"\n--- " ++ e.package.name ++ c!" ---") ∧ ∀ l, l ∈ part ↔ DetailLine w.debug e l)
        a.resolved parts) := by
  have hd : display w args a = (detailed w args.verbose a).map .line := by
    unfold display
    rw [if_neg (by rw [hf]; decide), if_pos hf]
  rw [hd, detailed]
  refine ⟨fun h => by simp [h], fun h => ⟨a.resolved.map (detailLines w), ?_, ?_⟩⟩
  · rw [if_neg (by rw [List.isEmpty_iff]; exact h), List.flatMap_def]
  · rw [List.forall₂_map_right_iff, List.forall₂_same]
    intro e _
    exact ⟨rfl, detailLines_iff w e⟩

/-- C203: in the format `json` the value lists, in their order, every resolved package with its name, whether it was requested and
what requires it, every failed requirement, and every conflict. -/
theorem C203_json (w : World) (args : Args) (a : Answer) (hf : args.format = c!"json") :
    ∃ r f c, display w args a = [.json r f c] ∧
      r.map (fun x => (x.1, x.2.2.1, x.2.2.2)) = a.resolved.map (fun e => (e.package.name, e.requested, e.requiredBy)) ∧
      (∀ i (h1 : i < r.length) (h2 : i < a.resolved.length), r[i].2.1 = a.resolved[i].package.version.map w.debug) ∧
      f = a.failed.map Requirement.display ∧
      c.map (·.1) = a.conflicts.map (·.name) ∧ c.map (·.2.1) = a.conflicts.map (fun x => x.requirements.map Requirement.display) ∧
      c.map (·.2.2) = a.conflicts.map (·.sources) := by
  refine ⟨a.resolved.map fun e => (e.package.name, e.package.version.map w.debug, e.requested, e.requiredBy),
    a.failed.map Requirement.display, a.conflicts.map fun c => (c.name, c.requirements.map Requirement.display, c.sources), ?_, ?_, ?_, rfl, ?_, ?_, ?_⟩
  · unfold display
    rw [if_neg (by rw [hf]; decide), if_neg (by rw [hf]; decide), if_pos hf]
  · simp [Function.comp_def]
  · intro i h1 h2; simp
  · simp [Function.comp_def]
  · simp [Function.comp_def]
  · simp [Function.comp_def]

/-- C203: the time limit makes no difference at all, and the other options of output none to what is resolved. -/
theorem C203_options (w : World) (args : Args) (n : Nat) :
    solveCmd w { args with timeout := n } = solveCmd w args ∧
    ∀ v s f, (solveCmd w { args with verbose := v, stats := s, format := f }).1 = (solveCmd w args).1 := by
  refine ⟨rfl, fun v s f => ?_⟩
  unfold solveCmd
  cases parseAll args.requirements with
  | none => rfl
  | some rs =>
    simp only
    have e : w.resolver (solveConfig { args with verbose := v, stats := s, format := f })
        (solveRepos w { args with verbose := v, stats := s, format := f }) rs = w.resolver (solveConfig args) (solveRepos w args) rs := rfl
    rw [e]
    cases w.resolver (solveConfig args) (solveRepos w args) rs <;> rfl

/-- In strict mode the resolver does not answer with failed requirements. -/
theorem solverWorld_strict (ps : List Package) (pre latest : Bool) (repos : List Str) (reqs : List Requirement) (a : Answer)
    (h : (solverWorld ps).solve true pre latest repos reqs = some a) : a.failed = [] := by
  simp only [solverWorld, Option.map_eq_some_iff] at h
  obtain ⟨r, hr, rfl⟩ := h
  generalize hd : ({ demoEnv true ps with allowPrerelease := pre, preferLatest := latest } : Env) = env at hr
  have hstrict : env.strict = true := by rw [← hd]; rfl
  have hj := Option.join_eq_some_iff.mp hr
  unfold Resolver.resolve at hj
  rw [Option.map_eq_some_iff] at hj
  obtain ⟨o, _, ho⟩ := hj
  cases o with
  | none => cases ho
  | some s =>
    change Resolver.finish env s = some r at ho
    unfold Resolver.finish at ho
    split at ho
    · cases ho
    · rw [hstrict] at ho
      by_cases hf : (Resolver.finalFailed s).isEmpty = true
      · simp [hf] at ho
        rw [← ho]; simpa [answerOf, List.isEmpty_iff] using hf
      · simp [hf] at ho

/-- C203: with `--strict` the command succeeds only if no requirement has failed, and so shows none. -/
theorem C203_strict (w : World) (args : Args) (hs : args.strict = true)
    (hw : ∀ pre latest repos reqs a, w.solve true pre latest repos reqs = some a → a.failed = [])
    (h : (solveCmd w args).1 = true) :
    ∃ rs a, Reads args.requirements rs ∧
      w.solve true false true (if args.repository = [] then w.packagesPath.filter w.exists_ else args.repository) rs = some a ∧ a.failed = [] := by
  obtain ⟨rs, h1, h2⟩ := (C203_ends w args).1.mp h
  obtain ⟨a, ha⟩ := Option.isSome_iff_exists.mp h2
  rw [hs] at ha
  exact ⟨rs, a, h1, ha, hw _ _ _ _ _ ha⟩

/-- The resolver is such a world. -/
example : ∀ pre latest repos reqs a, pythonWorld.solve true pre latest repos reqs = some a → a.failed = [] :=
  fun pre latest repos reqs a h => solverWorld_strict _ pre latest repos reqs a h

/-- C203 does not hold without `--strict`: asked for a package that does not exist, the command succeeds; with it, it fails. -/
theorem C203_lenient_false :
    (solveCmd pythonWorld ⟨[c!"maya"], [], false, 30, false, c!"summary", false⟩).1 = true ∧
    (solveCmd pythonWorld ⟨[c!"maya"], [], false, 30, false, c!"summary", true⟩).1 = false ∧
    (solveCmd pythonWorld ⟨[c!"python>=3"], [], false, 30, false, c!"summary", true⟩).1 = true := by
  refine ⟨?_, ?_, ?_⟩ <;> decide +kernel

/-! ## C204 -/

theorem nodup_rexAction {e : Rex.Env} (h : (mkeys e.vars).Nodup) (a : Rex.Action) : (mkeys (Rex.applyAction e a).vars).Nodup := by
  cases a <;> simp only [Rex.applyAction] <;> try exact h
  · exact nodup_mset h _ _
  · exact nodup_mdel h _
  · exact nodup_mset h _ _
  · exact nodup_mset h _ _
  · split
    · exact h
    · exact nodup_mset h _ _
  · exact nodup_mdel h _

theorem nodup_rexApply (l : List Rex.Action) : ∀ {e : Rex.Env}, (mkeys e.vars).Nodup → (mkeys (Rex.apply e l).vars).Nodup := by
  induction l with
  | nil => intro e h; exact h
  | cons a l ih =>
    intro e h
    rw [Rex.apply]
    split
    · exact nodup_rexAction h a
    · exact ih (nodup_rexAction h a)

theorem nodup_ownVars (w : World) (p : Pkg) : (mkeys (ownVars w p)).Nodup := by
  unfold ownVars
  cases p.commands with
  | none => exact List.nodup_nil
  | some c =>
    simp only [Rex.Executor.execute]
    cases Rex.parse c with
    | none => exact List.nodup_nil
    | some acts => exact nodup_rexApply _ (by simp [Rex.Env.new, mkeys])

theorem fold_mset_get (l : List (Str × Str)) (hn : (mkeys l).Nodup) (m : List (Str × Str)) (k : Str) :
    mget (l.foldl (fun m e => mset m e.1 e.2) m) k = (mget l k).or (mget m k) := by
  induction l generalizing m with
  | nil => simp
  | cons x l ih =>
    have hn' : x.1 ∉ mkeys l ∧ (mkeys l).Nodup := List.nodup_cons.mp hn
    rw [List.foldl_cons, ih hn'.2, mget_mset]
    by_cases hk : k = x.1
    · subst hk
      rw [(mget_none_iff l x.1).mpr hn'.1]; simp [mget]
    · simp [mget, hk, Ne.symm hk]

/-- C204: a variable has the value that the commands of the last package that sets it give it, run on their own. -/
theorem C204_last (w : World) (hw : ∀ m, (w.iter m).Perm m) (ps : List Pkg) (k v : Str) :
    mget (allVars w ps) k = some v ↔ Last (fun p => mget (ownVars w p) k) ps v := by
  unfold allVars
  refine fold_last _ (fun (p : Pkg) k => mget (ownVars w p) k) ?_ _ _ _
  intro m p k
  have hn := nodup_ownVars w p
  have hp := hw (ownVars w p)
  rw [fold_mset_get _ ((hp.map Prod.fst).nodup_iff.mpr hn), RexLemmas.mget_perm hp.symm hn]

/-- C204: a package without commands, or with commands that cannot be read, sets no variable; others see as their root
`/opt/name/version`, or `/opt/name`. -/
theorem C204_own (w : World) (p : Pkg) :
    (p.commands = none → ownVars w p = []) ∧
    (∀ c, p.commands = some c → Rex.parse c = none → ownVars w p = []) ∧
    ∀ c, p.commands = some c → ∀ e,
      (Rex.Executor.new.execute w.iter c p.name
        (some (c!"/opt/" ++ p.name ++ (match p.version with | some v => c!"/" ++ v.asStr | none => []))) (p.version.map Version.asStr)).2 = some e →
      ownVars w p = e.vars := by
  refine ⟨fun h => by simp [ownVars, h], fun c h1 h2 => by simp [ownVars, h1, Rex.Executor.execute, h2], fun c h1 e he => ?_⟩
  have hr : root p = c!"/opt/" ++ p.name ++ (match p.version with | some v => c!"/" ++ v.asStr | none => []) := by
    unfold root; cases p.version <;> simp
  unfold ownVars
  rw [h1]
  simp only [hr, he]

/-- Two packages that put a directory of theirs in front of `PATH`. -/
def pathPkgs : List Pkg :=
  [⟨c!"a", none, none, [], [], some c!"env.prepend_path('PATH', '{root}/bin')", some c!"/packages/a"⟩,
    ⟨c!"b", none, none, [], [], some c!"env.prepend_path('PATH', '{root}/bin')", some c!"/packages/b"⟩]

/-- C204 does not hold in the usual sense: of two packages that add to `PATH`, only the last is on it; and with a directory in
which it is not installed. -/
theorem C204_path_false : allVars pythonWorld pathPkgs = [(c!"PATH", c!"/opt/b/bin")] := by decide +kernel

theorem scripts_get (vars : List (Str × Str)) (names : List Str) (s t : Str) :
    mget (scripts vars names) s = some t ↔
      s ∈ names ∧ ∃ sh, EnvCmd.parseShell s = some sh ∧ t = RexShell.script { Rex.Env.new with vars := vars } sh := by
  unfold scripts
  rw [fold_last _ (fun n k => if n = k then (EnvCmd.parseShell n).map (RexShell.script { Rex.Env.new with vars := vars }) else none)]
  · constructor
    · rintro ⟨pre, x, post, b, h1, h2⟩
      by_cases hx : x = s
      · subst hx
        simp only [if_true, Option.map_eq_some_iff] at h1
        obtain ⟨sh, h3, h4⟩ := h1
        exact ⟨by simp, sh, h3, h4.symm⟩
      · simp [hx] at h1
    · rintro ⟨h, sh, h3, rfl⟩
      induction names using List.reverseRecOn with
      | nil => cases h
      | append_singleton l x ih =>
        rw [last_append]
        by_cases hx : x = s
        · subst hx; left; simp [h3]
        · right
          rcases List.mem_append.mp h with h | h
          · exact ⟨by simp [hx], ih h⟩
          · simp at h; exact absurd h.symm hx
  · intro m x k
    cases hp : EnvCmd.parseShell x with
    | none => by_cases hk : x = k <;> simp [hk]
    | some sh =>
      simp only
      rw [mget_mset]
      by_cases hk : x = k
      · simp [hk]
      · simp [hk, Ne.symm hk]

/-- C204: there is a script for each shell that was asked for and is known, the one that sets the variables of the environment; if
none was asked for, for bash, PowerShell, fish and cmd. -/
theorem C204_scripts (w : World) (ts : List Str) (shell : Option Str) (paths : Option (List Str)) (e : RezEnv)
    (h : rezEnv w ts shell paths = .ok e) (hs : e.success = true) :
    (∃ ps a, w.solve false false true ((paths.getD w.packagesPath).filter w.exists_) ps = some a ∧ e.vars = allVars w (a.resolved.map (·.package))) ∧
    (∀ s t, mget e.scripts s = some t ↔
      s ∈ (match shell with | some x => [x] | none => [c!"bash", c!"powershell", c!"fish", c!"cmd"]) ∧
      ∃ sh, EnvCmd.parseShell s = some sh ∧ t = RexShell.script { Rex.Env.new with vars := e.vars } sh) ∧
    (shell = none → e.shells = [c!"bash", c!"cmd", c!"fish", c!"powershell"]) := by
  unfold rezEnv at h
  cases hr : readAll ts with
  | err => simp [hr] at h; rw [← h] at hs; cases hs
  | panic => simp [hr] at h
  | ok ps =>
    simp only [hr, World.resolver, Config.default, World.repos] at h
    cases ha : w.solve false false true ((paths.getD w.packagesPath).filter w.exists_) (ps.map toResolver) with
    | none => simp [ha] at h; rw [← h] at hs; cases hs
    | some a =>
      simp only [ha, Outcome.ok.injEq] at h
      subst h
      refine ⟨⟨_, a, ha, rfl⟩, fun s t => ?_, ?_⟩
      · simp only [scripts_get]
        cases shell <;> rfl
      · rintro rfl; rfl

/-- C204: the activation script for an unknown shell is the empty text, not an error. -/
theorem C204_unknown_shell (w : World) (ts : List Str) (shell : Str) (paths : Option (List Str)) (hk : EnvCmd.parseShell shell = none)
    (e : RezEnv) (h : rezEnv w ts (some shell) paths = .ok e) (hs : e.success = true) :
    activationScript w ts shell paths = .ok [] := by
  have := (C204_scripts w ts (some shell) paths e h hs).2.1 shell
  have hn : mget e.scripts shell = none := by
    cases hm : mget e.scripts shell with
    | none => rfl
    | some t =>
      obtain ⟨_, sh, h1, _⟩ := (this t).mp hm
      rw [hk] at h1; cases h1
  simp [activationScript, h, hs, hn]

/-- C204: there is an activation script exactly if the environment could be resolved; for a known shell it is the text that sets the
variables, else it is empty. -/
theorem C204_activation (w : World) (ts : List Str) (shell : Str) (paths : Option (List Str)) (t : Str) :
    activationScript w ts shell paths = .ok t ↔
      ∃ e, rezEnv w ts (some shell) paths = .ok e ∧ e.success = true ∧
        (mget e.scripts shell = some t ∨ (mget e.scripts shell = none ∧ t = [])) := by
  unfold activationScript
  cases h : rezEnv w ts (some shell) paths with
  | panic => simp
  | err => simp
  | ok e =>
    cases hs : e.success with
    | false => simp [hs]
    | true =>
      simp only [if_true, Outcome.ok.injEq, exists_eq_left', hs, true_and]
      cases mget e.scripts shell with
      | none => simp [eq_comm]
      | some x => simp

/-- `tcsh` is no known shell. -/
example : EnvCmd.parseShell c!"tcsh" = none ∧ activationScript pythonWorld [c!"python"] c!"tcsh" none = .ok [] ∧
    ∃ e, rezEnv pythonWorld [c!"python"] none none = .ok e ∧ e.success = true :=
  ⟨by decide, by decide +kernel, ⟨_, rfl, rfl⟩⟩

/-- C204: a tool is where its package has its programs; if several packages have it, the last. -/
theorem C204_tools (c : Ctx) (tool path : Str) :
    mget c.tools tool = some path ↔ Last (fun p => if tool ∈ p.tools then
      some (match p.base with
        | some b => b ++ c!"/bin/" ++ tool
        | none => p.name ++ c!"-" ++ p.shown ++ c!"/bin/" ++ tool) else none) c.packages path := by
  have e : c.tools = c.packages.foldl (fun m p => p.tools.foldl (fun m t => mset m t (toolPath p t)) m) [] := by
    unfold Ctx.tools
    rw [List.foldl_flatMap]
    simp only [List.foldl_map]
  rw [e]
  have key : ∀ (p : Pkg) (l : List Str) (m : List (Str × Str)) (k : Str),
      mget (l.foldl (fun m t => mset m t (toolPath p t)) m) k = (if k ∈ l then some (toolPath p k) else none).or (mget m k) := by
    intro p l
    induction l with
    | nil => intro m k; simp
    | cons t l ih =>
      intro m k
      rw [List.foldl_cons, ih, mget_mset]
      by_cases h1 : k ∈ l
      · simp [h1]
      · by_cases h2 : k = t
        · subst h2; simp [h1]
        · simp [h1, h2]
  rw [fold_last _ (fun p k => if k ∈ p.tools then some (toolPath p k) else none) (fun m p k => key p p.tools m k)]
  rfl

/-- C204: what a context says of its packages: the first of a name; and name and version of each in their order, a missing
version as `unknown`. -/
theorem C204_context (c : Ctx) :
    (∀ name p, c.get name = some p ↔ ∃ pre post, c.packages = pre ++ p :: post ∧ p.name = name ∧ ∀ q ∈ pre, q.name ≠ name) ∧
    List.Forall₂ (fun p t => t = p.name ++ c!"-" ++ (match p.version with | some v => v.asStr | none => c!"unknown")) c.packages c.dictPackages ∧
    List.Forall₂ (fun p x => x.1 = p.name ∧ x.2 = (match p.version with | some v => v.asStr | none => c!"unknown")) c.packages c.info := by
  refine ⟨fun name p => ?_, ?_, ?_⟩
  · exact (C202_get ⟨c.packages, false⟩ name).2.1 p
  · rw [Ctx.dictPackages, List.forall₂_map_right_iff, List.forall₂_same]
    intro p _
    unfold Pkg.shown
    cases p.version <;> rfl
  · rw [Ctx.info, List.forall₂_map_right_iff, List.forall₂_same]
    intro p _
    refine ⟨rfl, ?_⟩
    unfold Pkg.shown
    cases p.version <;> rfl

/-! ## C205 -/

/-- C205: the versions of a family are those of its packages that have one, in the order in which they were added. -/
theorem C205_versions (pre post : Family) (p : Pkg) :
    Family.versions (pre ++ p :: post) = Family.versions pre ++
      (match p.version with | some v => [v.asStr] | none => []) ++ Family.versions post ∧ Family.versions [] = [] := by
  refine ⟨?_, rfl⟩
  unfold Family.versions
  cases h : p.version <;> simp [h]

/-- C205: what is called the latest version of a family whose packages all have versions is a lowest one. -/
theorem C205_lowest {sort : (Pkg → Pkg → Ordering) → List Pkg → Outcome (List Pkg)} (hs : Sorts sort) (f : Family) (hne : f ≠ [])
    (hv : ∀ p ∈ f, ∃ v, p.version = some v) (hc : SolveApi.Comparable f) :
    ∃ p v, Family.latest sort f = .ok (some p) ∧ p ∈ f ∧ p.version = some v ∧ ∀ q ∈ f, ∀ u, q.version = some u → v.cmp u ≠ .gt := by
  obtain ⟨r, hr, hp⟩ := hs.sorted byVersion f
    (by
      intro x hx y hy
      obtain ⟨u, hu⟩ := hv x hx; obtain ⟨v, hv⟩ := hv y hy
      simp only [byVersion, hu, hv]; exact (Version.cmp_swap _ _).symm)
    (by
      intro x hx y hy z hz
      obtain ⟨u, hu⟩ := hv x hx; obtain ⟨v, hv'⟩ := hv y hy; obtain ⟨w, hw⟩ := hv z hz
      simp only [byVersion, hu, hv', hw]
      exact hc x hx y hy z hz u v w hu hv' hw)
  have hperm := hs.perm _ _ _ hr
  cases r with
  | nil => exact absurd (List.nil_perm.mp hperm) hne
  | cons p r =>
    have hpf : p ∈ f := hperm.mem_iff.mp (by simp)
    obtain ⟨v, hpv⟩ := hv p hpf
    refine ⟨p, v, by simp [Family.latest, hr], hpf, hpv, ?_⟩
    intro q hq u hu
    rcases List.mem_cons.mp (hperm.mem_iff.mpr hq) with rfl | hq
    · rw [hpv] at hu; cases hu; rw [Version.cmp_refl]; simp
    · have := (List.pairwise_cons.mp hp).1 q hq
      simpa [byVersion, hu, hpv] using this

/-- C205: what is called the latest version is one of the packages, and there is one unless the family has none. -/
theorem C205_member {sort : (Pkg → Pkg → Ordering) → List Pkg → Outcome (List Pkg)} (hs : Sorts sort) (f : Family) (o : Option Pkg)
    (h : Family.latest sort f = .ok o) : (∀ p, o = some p → p ∈ f) ∧ (o = none ↔ f = []) := by
  unfold Family.latest at h
  cases hr : sort byVersion f with
  | err => simp [hr] at h
  | panic => simp [hr] at h
  | ok r =>
    simp [hr] at h
    have hp := hs.perm _ _ _ hr
    subst h
    refine ⟨fun p hp' => hp.mem_iff.mp (List.mem_of_head? hp'), ?_⟩
    rw [List.head?_eq_none_iff]
    constructor
    · rintro rfl; exact List.nil_perm.mp hp
    · rintro rfl; exact List.perm_nil.mp hp

/-- Insertion into a sorted list. -/
def insertPkg (c : Pkg → Pkg → Ordering) (x : Pkg) : List Pkg → List Pkg
  | [] => [x]
  | y :: l => if c x y = .gt then y :: insertPkg c x l else x :: y :: l

/-- Insertion sort. -/
def sortPkgs (c : Pkg → Pkg → Ordering) (l : List Pkg) : Outcome (List Pkg) := .ok (l.foldr (insertPkg c) [])

theorem insertPkg_perm (c : Pkg → Pkg → Ordering) (x : Pkg) (l : List Pkg) : (insertPkg c x l).Perm (x :: l) := by
  induction l with
  | nil => exact .refl _
  | cons y l ih =>
    unfold insertPkg
    split
    · exact (ih.cons y).trans (.swap x y l)
    · exact .refl _

/-- There is such a sort. -/
theorem sortPkgs_sorts : Sorts sortPkgs := by
  have hperm : ∀ (c : Pkg → Pkg → Ordering) (l : List Pkg), (l.foldr (insertPkg c) []).Perm l := by
    intro c l
    induction l with
    | nil => exact .refl _
    | cons x l ih => exact (insertPkg_perm c x _).trans (ih.cons x)
  refine ⟨?_, ?_, ?_⟩
  · intro c l r h; simp only [sortPkgs, Outcome.ok.injEq] at h; rw [← h]; exact hperm c l
  · intro c l h; cases h
  · intro c l h1 h2
    refine ⟨_, rfl, ?_⟩
    induction l with
    | nil => exact .nil
    | cons x l ih =>
      have ih := ih (fun a ha b hb => h1 a (by simp [ha]) b (by simp [hb]))
        (fun a ha b hb d hd => h2 a (by simp [ha]) b (by simp [hb]) d (by simp [hd]))
      rw [List.foldr_cons]
      have hm : ∀ y ∈ l.foldr (insertPkg c) [], y ∈ l := fun y hy => (hperm c l).mem_iff.mp hy
      generalize l.foldr (insertPkg c) [] = s at ih hm
      induction s with
      | nil => simp [insertPkg]
      | cons y s ihs =>
        obtain ⟨p1, p2⟩ := List.pairwise_cons.mp ih
        unfold insertPkg
        split
        · rename_i hgt
          refine List.pairwise_cons.mpr ⟨?_, ihs p2 fun z hz => hm z (by simp [hz])⟩
          intro z hz
          rcases List.mem_cons.mp ((insertPkg_perm c x s).mem_iff.mp hz) with rfl | hz
          · rw [h1 z (by simp) y (by simp [hm y (by simp)]), hgt]; simp
          · exact p1 z hz
        · rename_i hgt
          refine List.pairwise_cons.mpr ⟨?_, ih⟩
          intro z hz
          rcases List.mem_cons.mp hz with rfl | hz
          · exact hgt
          · exact h2 x (by simp) y (by simp [hm y (by simp)]) z (by simp [hm z (by simp [hz])]) hgt (p1 z hz)

/-- C205 does not hold in the usual sense: of the versions 1.0 and 2.0, 1.0 is called the latest. -/
theorem C205_latest_false :
    ∃ u v p, Version.parse c!"1.0" = some u ∧ Version.parse c!"2.0" = some v ∧
      Family.latest sortPkgs [⟨c!"a", some u, none, [], [], none, none⟩, ⟨c!"a", some v, none, [], [], none, none⟩] = .ok (some p) ∧
      p.version = some u ∧ u.cmp v = .lt :=
  ⟨_, _, _, rfl, rfl, rfl, rfl, by decide⟩

end Rez.Props
