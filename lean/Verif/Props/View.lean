import Verif.Spec.View
import Verif.Props.Serialization
import Verif.Props.PackageQuery
import Verif.Props.PackageOrder
import Verif.Props.Commands
/-!
# C227 `rez view`
-/
namespace Rez.Props
open Rez Rez.Serial Rez.View Rez.View.Spec Rez.Spec.Serial SerialLemmas
open Rez.PackageOrder (splitCmp)
open Rez.Commands (parseSpec choose)
open Rez.Spec (SortingOk Comparable)
open Rez.PackageQuery (World familyOf)
open Rez.Spec.PackageQuery (available Readable)
open PackageQueryLemmas (familyOf_ok)

/-! ## Which package -/

/-- With `--current`, what is shown is the first package of the context that has exactly the name given; the file is the one in
`REZ_RXT_FILE`, or else the one in `REZ_CONTEXT_FILE`. -/
theorem C227_current (m : Machine) (a : Args) (hc : a.current = true) (out : Str) :
    execute m a = .ok out ↔ (a.package ≠ [] ∧ ' ' ∉ a.package) ∧
      ∃ file, (m.rxtFile = some file ∨ (m.rxtFile = none ∧ m.contextFile = some file)) ∧
        ∃ before p after, m.contextAt file = some (some (before ++ p :: after)) ∧ p.name = a.package ∧
          (∀ q ∈ before, q.name ≠ a.package) ∧ out = display a p := by
  have hv : validName a.package = true ↔ a.package ≠ [] ∧ ' ' ∉ a.package := by
    simp [validName]
  unfold execute
  by_cases h : validName a.package = true
  · simp only [h, Bool.not_true, Bool.false_eq_true, if_false, hc, if_true, hv.mp h, not_false_eq_true, ne_eq, and_self, true_and]
    unfold currentPackage
    have hfile : ∀ file, (m.rxtFile = some file ∨ (m.rxtFile = none ∧ m.contextFile = some file)) ↔
        m.rxtFile.or m.contextFile = some file := by
      intro file
      cases m.rxtFile <;> simp
    simp only [hfile]
    rcases hf : m.rxtFile.or m.contextFile with _ | file
    · simp
    · rcases hx : m.contextAt file with _ | _ | ps
      · simp [hx]
      · simp [hx]
      · simp only [hx]
        constructor
        · intro ho
          rcases hp : ps.find? (fun p => p.name == a.package) with _ | p
          · rw [hp] at ho; cases ho
          · rw [hp] at ho
            obtain ⟨h1, before, after, he, hb⟩ := List.find?_eq_some_iff_append.mp hp
            refine ⟨file, rfl, before, p, after, by rw [hx, he], by simpa using h1, fun q hq => by simpa using hb q hq, ?_⟩
            injection ho with ho
            exact ho.symm
        · rintro ⟨file', he, before, p, after, h1, h2, h3, rfl⟩
          cases he
          rw [hx] at h1
          injection h1 with h1
          injection h1 with h1
          have : ps.find? (fun p => p.name == a.package) = some p :=
            List.find?_eq_some_iff_append.mpr ⟨by simpa using h2, before, after, h1, fun q hq => by simpa using h3 q hq⟩
          rw [this]
  · have : ¬(a.package ≠ [] ∧ ' ' ∉ a.package) := fun e => h (hv.mpr e)
    simp [h, this]

/-- Without it, a directory of that name is looked at before the repositories. -/
theorem C227_directory (m : Machine) (a : Args) (hc : a.current = false) (hn : a.package ≠ [] ∧ ' ' ∉ a.package) :
    (∀ p, m.here a.package = .package p → execute m a = .ok (display a p)) ∧
    (m.here a.package = .noPackageFile ∨ m.here a.package = .unreadable → execute m a = .err) := by
  have hv : validName a.package = true := by simpa [validName] using hn
  constructor
  · intro p hp
    simp [execute, hv, hc, foundPackage, hp]
  · rintro (hp | hp) <;> simp [execute, hv, hc, foundPackage, hp]

/-- Otherwise the package comes from the repositories.  With a version, a package with exactly that version is shown, if there is
one. -/
theorem C227_exact (m : Machine) (a : Args) (hc : a.current = false) (hn : a.package ≠ [] ∧ ' ' ∉ a.package)
    (hh : m.here a.package = .noDirectory) (hs : SortingOk m.world.srt) (hr : Readable m.world none) (name version : Str)
    (hsp : a.package = name ++ c!"-" ++ version) (hd : '-' ∉ version) (c : Char) (t : Str) (hv : version = c :: t)
    (hc' : isDigit c = true) (hcmp : Comparable (available m.world none name)) :
    (∃ p ∈ available m.world none name, (∃ v, p.version = some v ∧ v.asStr = version) ∧ execute m a = .ok (display a (m.full p))) ∨
    ((∀ p ∈ available m.world none name, ∀ v, p.version = some v → v.asStr ≠ version) ∧ execute m a = .err) := by
  have hval : validName a.package = true := by simpa [validName] using hn
  have hspec : parseSpec a.package = (name, some version) := by rw [hsp]; exact C122_spec_partial name version hd c t hv hc'
  obtain ⟨l, hl, hperm, -⟩ := familyOf_ok hs hr name hcmp
  obtain ⟨r, hch, h1, h2⟩ := C122_exact m.world.srt l version
  cases r with
  | some p =>
    left
    obtain ⟨hp, hpv⟩ := h1 p rfl
    refine ⟨p, hperm.mem_iff.mp hp, hpv, ?_⟩
    have hne : l.isEmpty = false := by cases l with | nil => cases hp | cons _ _ => rfl
    simp [execute, hval, hc, foundPackage, hh, fromRepos, hspec, hl, hne, hch]
  | none =>
    right
    refine ⟨fun p hp => h2 rfl p (hperm.mem_iff.mpr hp), ?_⟩
    cases hne : l.isEmpty <;> simp [execute, hval, hc, foundPackage, hh, fromRepos, hspec, hl, hne, hch]

/-- Without a version it is the lowest version that is shown, although the latest is meant. -/
theorem C227_lowest (m : Machine) (a : Args) (hc : a.current = false) (hn : a.package ≠ [] ∧ ' ' ∉ a.package)
    (hh : m.here a.package = .noDirectory) (hs : SortingOk m.world.srt) (hr : Readable m.world none)
    (hsp : parseSpec a.package = (a.package, none)) (hcmp : Comparable (available m.world none a.package))
    (hv : ∀ p ∈ available m.world none a.package, p.version ≠ none) :
    (available m.world none a.package = [] ∧ execute m a = .err) ∨
    ∃ p ∈ available m.world none a.package, execute m a = .ok (display a (m.full p)) ∧
      ∀ q ∈ available m.world none a.package, ∀ v w, p.version = some v → q.version = some w → v.cmp w ≠ .gt := by
  have hval : validName a.package = true := by simpa [validName] using hn
  obtain ⟨l, hl, hperm, -⟩ := familyOf_ok hs hr a.package hcmp
  by_cases hne : l = []
  · left
    subst hne
    refine ⟨List.Perm.eq_nil hperm.symm, ?_⟩
    simp [execute, hval, hc, foundPackage, hh, fromRepos, hsp, hl]
  · right
    have hv' : ∀ p ∈ l, p.version ≠ none := fun p hp => hv p (hperm.mem_iff.mp hp)
    obtain ⟨p, hp, hch, hlow⟩ := C122_lowest m.world.srt hs l hne hv'
      (splitCmp_consistent (fun p hp q hq r hr => hcmp p (hperm.mem_iff.mp hp) q (hperm.mem_iff.mp hq) r (hperm.mem_iff.mp hr)) hv')
    refine ⟨p, hperm.mem_iff.mp hp, ?_, fun q hq => hlow q (hperm.mem_iff.mpr hq)⟩
    have hne' : l.isEmpty = false := by cases l with | nil => cases hp | cons _ _ => rfl
    simp [execute, hval, hc, foundPackage, hh, fromRepos, hsp, hl, hne', hch]

/-! ## YAML -/

theorem yaml_append {s t : Str} {l k : List (Str × Node)} (h : Yaml s l) (h' : Yaml t k) : Yaml (s ++ t) (l ++ k) := by
  induction h with
  | done => exact h'
  | blank _ ih => exact .blank ih
  | comment ht _ ih => rw [List.append_assoc]; exact .comment ht ih
  | text h1 h2 _ ih => rw [List.append_assoc]; exact .text h1 h2 ih
  | list h1 h2 h3 _ ih => rw [List.append_assoc]; exact .list h1 h2 h3 ih
  | lists h1 h2 h3 _ ih => rw [List.append_assoc]; exact .lists h1 h2 h3 ih
  | block h1 h2 h3 h4 _ ih => rw [List.append_assoc]; exact .block h1 h2 h3 h4 ih
  | table h1 h2 h3 _ ih => rw [List.append_assoc]; exact .table h1 h2 h3 ih


theorem yaml_text {k : Str} (hk : Bare k) {o : Option Str} (h : ∀ s ∈ o, Bare s) : Yaml (yamlText k o) (textEntry k o) := by
  cases o with
  | none => exact .done
  | some s =>
    have := Yaml.text hk (h s rfl) .done
    rw [List.append_nil] at this
    exact this

theorem yaml_list {k : Str} (hk : Bare k) {l : List Str} (h : ∀ s ∈ l, Bare s) : Yaml (yamlList k l) (listEntry k l) := by
  unfold yamlList listEntry
  cases l with
  | nil => exact .done
  | cons x l =>
    have := Yaml.list hk (List.cons_ne_nil x l) h .done
    rw [List.append_nil] at this
    simpa [line] using this

theorem yaml_variants {l : List (List Str)} (h : ∀ r ∈ l, ∀ s ∈ r, Bare s) :
    Yaml (yamlVariants l) (if l = [] then [] else [(c!"variants", .lists l)]) := by
  unfold yamlVariants
  cases l with
  | nil => exact .done
  | cons x l =>
    have := Yaml.lists (k := c!"variants") (by decide) (List.cons_ne_nil x l) h .done
    rw [List.append_nil] at this
    simpa [line] using this

theorem yaml_tests {l : List (Str × Str)} (h : ∀ r ∈ l, Bare r.1 ∧ Bare r.2) :
    Yaml (yamlTests l) (if l = [] then [] else [(c!"tests", .table l)]) := by
  unfold yamlTests
  cases l with
  | nil => exact .done
  | cons x l =>
    have := Yaml.table (k := c!"tests") (by decide) (List.cons_ne_nil x l) h .done
    rw [List.append_nil] at this
    simpa [line] using this

theorem yaml_commands {o : Option Str} (h : ∀ s ∈ o, BlockText s) : Yaml (yamlCommands o) (commandsEntry o) := by
  cases o with
  | none => exact .done
  | some s =>
    obtain ⟨⟨c, t, rest, he, hc⟩, hl⟩ := h s rfl
    have hn : ∀ x ∈ (c :: t) :: rest, '\n' ∉ x := fun x hx => linesOf_clean (by rw [he]; exact hx)
    have := Yaml.block (k := c!"commands") (by decide) ⟨c, t, rfl, hc⟩ hn (by rw [← he]; exact hl) .done
    rw [List.append_nil, ← he] at this
    show Yaml (line c!"commands: |" ++ (linesOf s).flatMap fun l => line (c!"  " ++ l)) [(c!"commands", _)]
    simpa [line] using this

theorem yaml_header (a : Args) (p : Pkg) (h1 : '\n' ∉ p.name) (h2 : ∀ v, p.version = some v → '\n' ∉ v.asStr) : Yaml (header a p) [] := by
  unfold header
  split
  · exact .done
  · have h3 : Yaml (p.version.elim [] fun v => line (c!"# Version: " ++ v.asStr)) [] := by
      cases hv : p.version with
      | none => exact .done
      | some v =>
        have := Yaml.comment (t := c!" Version: " ++ v.asStr) (by rw [List.mem_append, not_or]; exact ⟨by decide, h2 v hv⟩) .done
        simpa [line] using this
    have h4 : Yaml (line (c!"# Package: " ++ p.name)) [] := by
      have := Yaml.comment (t := c!" Package: " ++ p.name) (by rw [List.mem_append, not_or]; exact ⟨by decide, h1⟩) .done
      simpa [line] using this
    exact yaml_append (yaml_append h4 h3) (.blank .done)

theorem bare_line {s : Str} (h : Bare s) : '\n' ∉ s := fun hn => absurd (h.2.2 _ hn).1 (by decide)

/-- The YAML text says what the fields shown are, if the texts need no quotes. -/
theorem C227_yaml (a : Args) (p : Pkg) (ht : ∀ s ∈ texts a.all p, Bare s) (hc : ∀ s, p.commands = some s → BlockText s)
    (hts : a.all = true → ∀ t ∈ p.tests, Bare t.1 ∧ Bare t.2) : Yaml (yaml a p) (entries a.all p) := by
  have hm : ∀ {s : Str}, s ∈ texts a.all p → Bare s := fun hs => ht _ hs
  have h0 := yaml_header a p (bare_line (hm (by simp [texts]))) fun v hv => bare_line (hm (by simp [texts, hv]))
  have h1 : Yaml (line (c!"name: " ++ p.name)) [(c!"name", .text p.name)] := by
    have := yaml_text (k := c!"name") (by decide) (o := some p.name) (by intro s hs; cases hs; exact hm (by simp [texts]))
    simpa [yamlText, textEntry, line] using this
  have h2 := yaml_text (k := c!"version") (by decide) (o := p.version.map Version.asStr) fun s hs => hm (by
    simp only [texts, List.mem_append, Option.mem_toList]; tauto)
  have h3 := yaml_text (k := c!"description") (by decide) (o := p.description) fun s hs => hm (by
    simp only [texts, List.mem_append, Option.mem_toList]; tauto)
  have h4 := yaml_list (k := c!"authors") (by decide) (l := p.authors) fun s hs => hm (by simp [texts, hs])
  have h5 := yaml_list (k := c!"requires") (by decide) (l := p.requires) fun s hs => hm (by simp [texts, hs])
  have h6 := yaml_list (k := c!"tools") (by decide) (l := p.tools) fun s hs => hm (by simp [texts, hs])
  have h7 := yaml_variants (l := p.variants) fun r hr s hs => hm (by
    simp only [texts, List.mem_append, List.mem_flatten]; exact Or.inl (Or.inl (Or.inl (Or.inl (Or.inr ⟨r, hr, hs⟩)))))
  have h8 := yaml_text (k := c!"build_command") (by decide) (o := p.buildCommand) fun s hs => hm (by
    simp only [texts, List.mem_append, Option.mem_toList]; tauto)
  have h9 := yaml_text (k := c!"build_system") (by decide) (o := p.buildSystem) fun s hs => hm (by
    simp only [texts, List.mem_append, Option.mem_toList]; tauto)
  have h10 := yaml_text (k := c!"uuid") (by decide) (o := p.uuid) fun s hs => hm (by
    simp only [texts, List.mem_append, Option.mem_toList]; tauto)
  have h11 := yaml_commands (o := p.commands) fun s hs => hc s hs
  have h12 : Yaml (if a.all then yamlText c!"pre_commands" p.preCommands ++ yamlText c!"post_commands" p.postCommands ++ yamlTests p.tests else [])
      (if a.all then textEntry c!"pre_commands" p.preCommands ++ textEntry c!"post_commands" p.postCommands ++
        (if p.tests = [] then [] else [(c!"tests", .table p.tests)]) else []) := by
    by_cases hall : a.all = true
    · rw [if_pos hall, if_pos hall]
      have g1 := yaml_text (k := c!"pre_commands") (by decide) (o := p.preCommands) fun s hs => hm (by
        simp only [texts, hall, if_true, List.mem_append, Option.mem_toList]; tauto)
      have g2 := yaml_text (k := c!"post_commands") (by decide) (o := p.postCommands) fun s hs => hm (by
        simp only [texts, hall, if_true, List.mem_append, Option.mem_toList]; tauto)
      exact yaml_append (yaml_append g1 g2) (yaml_tests (hts hall))
    · rw [if_neg hall, if_neg hall]; exact .done
  have := yaml_append (yaml_append (yaml_append (yaml_append (yaml_append (yaml_append (yaml_append (yaml_append (yaml_append
    (yaml_append (yaml_append (yaml_append h0 h1) h2) h3) h4) h5) h6) h7) h8) h9) h10) h11) h12
  exact this

/-! ## Python -/

theorem py_list {n : Str} {l : List Str} (hn : Ident n) (h : ∀ s ∈ l, '"' ∉ s ∧ '\\' ∉ s ∧ '\n' ∉ s ∧ '\r' ∉ s) :
    Program (View.pyList n l) (listStmt n l) := by
  unfold View.pyList listStmt
  cases hl : l.isEmpty with
  | true => exact .done
  | false =>
    have h1 := items_join quoted Py.str (fun s hs => quoted_plain (h s hs)) (a := []) (sp := c!" ") (b := [])
      (blank_dec rfl) (blank_dec rfl) (blank_dec rfl)
    have := program_assign hn (.list h1)
    simpa [line] using this

theorem py_text {n : Str} {o : Option Str} (hn : Ident n) (h : ∀ s ∈ o, '"' ∉ s ∧ '\\' ∉ s ∧ '\n' ∉ s ∧ '\r' ∉ s) :
    Program (View.pyText n o) (textStmt n o) := by
  have := program_text hn h
  cases o with
  | none => exact .done
  | some s => simpa [View.pyText, line] using this

theorem py_variants {l : List (List Str)} (h : ∀ v ∈ l, ∀ s ∈ v, '"' ∉ s ∧ '\\' ∉ s ∧ '\n' ∉ s ∧ '\r' ∉ s) :
    Program (View.pyVariants l) (variantStmt l) := by
  unfold View.pyVariants variantStmt
  cases hl : l.isEmpty with
  | true => exact .done
  | false =>
    have h1 := items_terms (fun v : List Str => c!"[" ++ joinWith c!", " (v.map quoted) ++ c!"]") (fun v => Py.list (v.map .str))
      (fun v hv => variant_expr (h v hv)) (a := c!"\n") (lead := c!"    ") (trail := c!"\n") (blank_dec rfl) (blank_dec rfl) (blank_dec rfl)
    have := program_assign (n := c!"variants") (ident_dec rfl) (.list h1)
    simpa [line] using this

theorem py_header (a : Args) (p : Pkg) (h1 : '\n' ∉ p.name) (h2 : ∀ v, p.version = some v → '\n' ∉ v.asStr) : Program (header a p) [] := by
  unfold header
  split
  · exact .done
  · have h3 : Program (p.version.elim [] fun v => line (c!"# Version: " ++ v.asStr)) [] := by
      cases hv : p.version with
      | none => exact .done
      | some v =>
        have := Program.comment (t := c!" Version: " ++ v.asStr) (by rw [List.mem_append, not_or]; exact ⟨by decide, h2 v hv⟩) .done
        simpa [line] using this
    have h4 : Program (line (c!"# Package: " ++ p.name)) [] := by
      have := Program.comment (t := c!" Package: " ++ p.name) (by rw [List.mem_append, not_or]; exact ⟨by decide, h1⟩) .done
      simpa [line] using this
    exact program_append (program_append h4 h3) (.blank .done)

/-- The Python text says what the fields shown are, if no text has quotes, backslashes or line breaks, and there are no tests to
show. -/
theorem C227_python (a : Args) (p : Pkg) (hp : Plain (texts a.all p)) (hts : a.all = true → p.tests = []) :
    Program (View.python a p) (statements a.all p) := by
  have hm : ∀ {s : Str}, s ∈ texts a.all p → '"' ∉ s ∧ '\\' ∉ s ∧ '\n' ∉ s ∧ '\r' ∉ s := fun hs => plain_mem hp hs
  have h0 := py_header a p (hm (by simp [texts])).2.2.1 fun v hv => (hm (by simp [texts, hv])).2.2.1
  have h1 : Program (line (c!"name = " ++ quoted p.name)) [.assign c!"name" (.str p.name)] := by
    have := py_text (n := c!"name") (o := some p.name) (ident_dec rfl) (by intro s hs; cases hs; exact hm (by simp [texts]))
    simpa [View.pyText, textStmt, line] using this
  have h2 := py_text (n := c!"version") (o := p.version.map Version.asStr) (ident_dec rfl) fun s hs => hm (by
    simp only [texts, List.mem_append, Option.mem_toList]; tauto)
  have h3 := py_text (n := c!"description") (o := p.description) (ident_dec rfl) fun s hs => hm (by
    simp only [texts, List.mem_append, Option.mem_toList]; tauto)
  have h4 := py_list (n := c!"authors") (l := p.authors) (ident_dec rfl) fun s hs => hm (by simp [texts, hs])
  have h5 := py_list (n := c!"requires") (l := p.requires) (ident_dec rfl) fun s hs => hm (by simp [texts, hs])
  have h6 := py_list (n := c!"tools") (l := p.tools) (ident_dec rfl) fun s hs => hm (by simp [texts, hs])
  have h7 := py_variants (l := p.variants) fun r hr s hs => hm (by
    simp only [texts, List.mem_append, List.mem_flatten]; exact Or.inl (Or.inl (Or.inl (Or.inl (Or.inr ⟨r, hr, hs⟩)))))
  have h8 := py_text (n := c!"build_command") (o := p.buildCommand) (ident_dec rfl) fun s hs => hm (by
    simp only [texts, List.mem_append, Option.mem_toList]; tauto)
  have h9 := py_text (n := c!"build_system") (o := p.buildSystem) (ident_dec rfl) fun s hs => hm (by
    simp only [texts, List.mem_append, Option.mem_toList]; tauto)
  have h10 := py_text (n := c!"uuid") (o := p.uuid) (ident_dec rfl) fun s hs => hm (by
    simp only [texts, List.mem_append, Option.mem_toList]; tauto)
  have h12 : Program (if a.all then View.pyText c!"pre_commands" p.preCommands ++ View.pyText c!"post_commands" p.postCommands ++ pyTests p.tests else [])
      (if a.all then textStmt c!"pre_commands" p.preCommands ++ textStmt c!"post_commands" p.postCommands else []) := by
    by_cases hall : a.all = true
    · rw [if_pos hall, if_pos hall, hts hall]
      have g1 := py_text (n := c!"pre_commands") (o := p.preCommands) (ident_dec rfl) fun s hs => hm (by
        simp only [texts, hall, if_true, List.mem_append, Option.mem_toList]; tauto)
      have g2 := py_text (n := c!"post_commands") (o := p.postCommands) (ident_dec rfl) fun s hs => hm (by
        simp only [texts, hall, if_true, List.mem_append, Option.mem_toList]; tauto)
      have := program_append g1 g2
      simpa [pyTests] using this
    · rw [if_neg hall, if_neg hall]; exact .done
  have := program_append (program_append (program_append (program_append (program_append (program_append (program_append (program_append
    (program_append (program_append (program_append h0 h1) h2) h3) h4) h5) h6) h7) h8) h9) h10) h12
  exact this

theorem dict_lines : ∀ (l : List (Str × Str)) (lead : Str), Blank lead → (∀ t ∈ l, Plain [t.1, t.2]) →
    Dict (lead ++ l.flatMap fun t => line (c!"    " ++ quoted t.1 ++ c!": " ++ quoted t.2 ++ c!",")) l := by
  intro l
  induction l with
  | nil =>
    intro lead hb _
    rw [List.flatMap_nil, List.append_nil]
    exact .done hb
  | cons t l ih =>
    intro lead hb h
    obtain ⟨k, v⟩ := t
    have hp := h (k, v) (by simp)
    have hr := ih c!"\n" (blank_dec rfl) fun t ht => h t (List.mem_cons_of_mem _ ht)
    have hlead : Blank (lead ++ c!"    ") := by
      intro c hc
      rcases List.mem_append.mp hc with hc | hc
      · exact hb c hc
      · exact (blank_dec (a := c!"    ") rfl) c hc
    have := Dict.more (b := []) (c := c!" ") (d := []) hlead (quoted_plain (plain_mem hp (by simp : k ∈ [k, v]))) (blank_dec rfl) (blank_dec rfl)
      (quoted_plain (plain_mem hp (by simp : v ∈ [k, v]))) (blank_dec rfl) hr
    simpa [line] using this

/-- The tests come last: a table of their names and commands. -/
theorem C227_tests (a : Args) (p : Pkg) (ha : a.all = true) (hpy : a.python = true) (hne : p.tests ≠ []) (hp : ∀ t ∈ p.tests, Plain [t.1, t.2]) :
    ∃ d, display a p = display a { p with tests := [] } ++ c!"tests = {" ++ d ++ c!"}\n" ∧ Dict d p.tests := by
  refine ⟨_, ?_, dict_lines p.tests c!"\n" (blank_dec rfl) hp⟩
  have he : p.tests.isEmpty = false := by simpa using hne
  unfold display
  simp [hpy, View.python, ha, header, pyTests, he, line]

/-! ## Which fields -/

/-- What is printed depends on these fields and on nothing else: without `--all` neither tests nor commands before and after, in
Python never the commands, and in no case what is needed to build the package. -/
theorem C227_fields (a : Args) (p : Pkg) : display a p = display a (shownFields a p) := by
  unfold display
  cases hp : a.python <;> cases ha : a.all <;>
    simp [hp, View.python, View.yaml, header, shownFields, ha]

/-- `--brief` leaves out the comments at the beginning and nothing else. -/
theorem C227_brief (a : Args) (p : Pkg) :
    display { a with brief := false } p = c!"# Package: " ++ p.name ++ c!"\n" ++
      (p.version.elim [] fun v => c!"# Version: " ++ v.asStr ++ c!"\n") ++ c!"\n" ++ display { a with brief := true } p := by
  unfold display
  cases hv : p.version <;> cases hp : a.python <;> simp [View.python, View.yaml, header, line, hp, hv]

/-! ## Concrete cases -/

/-- A machine with two repositories and a context. -/
def viewMachine : Machine where
  rxtFile := none
  contextFile := some c!"/ctx.rxt"
  contextAt := fun f => if f = c!"/ctx.rxt" then some (some [{ name := c!"b" }, { name := c!"a", description := some c!"first" },
    { name := c!"a", description := some c!"second" }]) else none
  here := fun _ => .noDirectory
  world := twoSites
  full := fun p => { name := p.name, version := p.version, requires := p.requires, variants := p.variants, tools := p.tools }

example : SortingOk viewMachine.world.srt ∧ Readable viewMachine.world none ∧ Comparable (available viewMachine.world none c!"a") ∧
    (∀ p ∈ available viewMachine.world none c!"a", p.version ≠ none) ∧ parseSpec c!"a" = (c!"a", none) ∧
    (available viewMachine.world none c!"a").length = 4 :=
  ⟨demoSorting_ok, twoSites_readable, PackageQueryLemmas.comparable_of (by decide +kernel), by decide +kernel, by decide, by decide +kernel⟩

example : execute viewMachine { package := c!"a", current := true, brief := true } = .ok c!"name: a\ndescription: first\n" ∧
    execute viewMachine { package := c!"a-10", brief := true, python := true } = .ok c!"name = \"a\"\nversion = \"10\"\n" ∧
    execute viewMachine { package := c!"a-12" } = .err := by decide +kernel

/-- What is shown without a version is not the latest: 11 is there and 1.0 is shown. -/
theorem C227_latest_false : execute viewMachine { package := c!"a", brief := true } = .ok c!"name: a\nversion: 1.0\n" ∧
    (∃ p ∈ available viewMachine.world none c!"a", p.version = Version.parse c!"11") := by decide +kernel

/-- A package with everything. -/
def shownPkg : Pkg :=
  { name := c!"maya_utils", version := Version.parse c!"1.2", description := some c!"Tools for Maya", authors := [c!"An", c!"Bo"],
    requires := [c!"python-3+<4"], tools := [c!"mu"], variants := [[c!"maya-2024", c!"python-3.10"], []], buildSystem := some c!"make",
    uuid := some c!"1f", commands := some c!"import x\n  y\nz", preCommands := some c!"pass", tests := [(c!"unit", c!"pytest -v")] }

instance (s : Str) : Decidable (BlockText s) := by
  unfold BlockText
  refine @instDecidableAnd _ _ ?_ inferInstance
  rcases h : linesOf s with _ | ⟨_ | ⟨c, t⟩, rest⟩
  · exact isFalse (by rintro ⟨c, t, rest, h, -⟩; cases h)
  · exact isFalse (by rintro ⟨c, t, rest, h, -⟩; cases h)
  · by_cases hc : c = ' '
    · exact isFalse (by rintro ⟨c', t', rest', h, hn⟩; cases h; exact hn hc)
    · exact isTrue ⟨c, t, rest, rfl, hc⟩

example : (∀ s ∈ texts true shownPkg, Bare s) ∧ BlockText c!"import x\n  y\nz" ∧ (∀ t ∈ shownPkg.tests, Bare t.1 ∧ Bare t.2) := by
  decide +kernel

example : Plain (texts true { shownPkg with tests := [] }) := by unfold Plain Without; decide +kernel
example : shownPkg.tests ≠ [] ∧ ∀ t ∈ shownPkg.tests, Plain [t.1, t.2] := by unfold Plain Without; decide +kernel

/-- Neither format escapes anything: a package with two fields and one whose description pretends to be two are shown alike. -/
theorem C227_escape_false : ∃ p q : Pkg, p ≠ q ∧ p.uuid = none ∧ q.uuid = some c!"x" ∧ ∃ p' q' : Pkg, p' ≠ q' ∧ p'.uuid = none ∧
    q'.uuid = some c!"x" ∧ (∀ all brief, display { package := c!"a", all, brief } p = display { package := c!"a", all, brief } q) ∧
    ∀ all brief, display { package := c!"a", python := true, all, brief } p' =
      display { package := c!"a", python := true, all, brief } q' :=
  ⟨{ name := c!"a", description := some c!"d\nuuid: x" }, { name := c!"a", description := some c!"d", uuid := some c!"x" },
    by decide +kernel, rfl, rfl,
    { name := c!"a", description := some c!"d\"\nuuid = \"x" }, { name := c!"a", description := some c!"d", uuid := some c!"x" },
    by decide +kernel, rfl, rfl, by decide +kernel, by decide +kernel⟩

/-- `--all` does not show all: what is needed to build the package, and how it was released, is never shown. -/
theorem C227_all_false : ∃ p q : Pkg, p.buildRequires ≠ q.buildRequires ∧ p.help ≠ q.help ∧ p.timestamp ≠ q.timestamp ∧
    p.changelog ≠ q.changelog ∧ ∀ python brief, display { package := c!"a", all := true, python, brief } p =
      display { package := c!"a", all := true, python, brief } q :=
  ⟨{ name := c!"a" }, { name := c!"a", buildRequires := [c!"cmake"], help := some c!"h", timestamp := some 1, changelog := some c!"c" },
    by decide, by decide, by decide, by decide, by decide +kernel⟩

/-- The commands are never shown in Python. -/
theorem C227_commands_false (a : Args) (ha : a.python = true) (p : Pkg) (c : Option Str) : display a { p with commands := c } = display a p := by
  rw [C227_fields a p, C227_fields a { p with commands := c }]
  simp [shownFields, ha]

end Rez.Props
