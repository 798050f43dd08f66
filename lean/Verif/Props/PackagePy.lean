import Verif.Lemmas.PackagePyFile
/-!
# C137, C138: reading package.py
-/
namespace Rez.Props
open Rez.PackagePy
open Rez.Spec
open Rez.Spec.Py (Res Val Plain namespaceOf Declares Acceptable TextIs CommandIs Performs)
open Rez.Rex (Action)
open Rez.Serial (Pkg)

namespace PyProps
open Rez.PyLemmas

/-! ## A world and some files for the examples -/

def world : World where
  getenv := fun _ => none
  lower := fun s => s.map lowerChar
  fadd := fun a b => a + b
  fneg := fun a => a
  fshow := fun n => decimal n
  platform := c!"linux"
  osName := c!"posix"
  alnum := isTok
  checks := true
  provided := fun _ => false

def text (s : Str) : Expr := .const (.str s)
def number (i : Int) : Expr := .const (.int i)
def set (x : Str) (e : Expr) : Stmt := .assign [.name x] e

/-- `name = "p"`, then the statements. -/
def file (l : List Stmt) : List Stmt := set c!"name" (text c!"p") :: l

/-- Python runs the file and finds that the description is `python`; the program reads a package whose description is
`read`, which is not the same. -/
def Misread (w : World) (f : List Stmt) (python : Str) (read : Option Str) : Prop :=
  ∃ env p, namespaceOf false w f = .ok env ∧ load w f = .ok p ∧
    (mget env c!"description").bind Py.textOf = some python ∧ p.description = read ∧ read ≠ some python

/-- Python runs the file, and the program does not read it. -/
def Refused (w : World) (f : List Stmt) : Prop :=
  ∃ env, namespaceOf false w f = .ok env ∧ load w f = .err

/-- Python runs the file, and the program panics. -/
def Crashes (w : World) (f : List Stmt) : Prop :=
  ∃ env, namespaceOf false w f = .ok env ∧ load w f = .panic

/-- Python raises an exception, and the program reads a package. -/
def Overlooked (w : World) (f : List Stmt) : Prop :=
  namespaceOf false w f = .raises ∧ ∃ p, load w f = .ok p

instance (t : Option Str) (acts : List Action) : Decidable (Performs t acts) := by
  unfold Performs
  split <;> infer_instance

theorem validate_iff (w : World) (p : Pkg) : p.validate w.alnum = true ↔ Acceptable w p := by
  unfold Serial.Pkg.validate
  constructor
  · intro h
    repeat' split at h
    all_goals first | (cases h; done) | skip
    rename_i h1 h2 h3 h4 h5 h6 h7
    refine ⟨⟨?_, ?_⟩, ?_, ?_, ?_, ?_, ?_⟩
    · intro e
      exact h1 (by rw [e]; rfl)
    · intro c hc
      have h2 : (p.name.all fun c => w.alnum c || c == '_' || c == '-') = true := by
        rw [Bool.not_eq_true, Bool.not_eq_false'] at h2
        exact h2
      have := List.all_eq_true.mp h2 c hc
      simpa [or_assoc] using this
    · intro v hv e
      apply h3
      rw [hv]
      simp [e]
    · intro hm
      exact h4 (List.any_eq_true.mpr ⟨[], hm, rfl⟩)
    · intro hm
      exact h5 (List.any_eq_true.mpr ⟨[], hm, rfl⟩)
    · intro hm
      exact h6 (List.any_eq_true.mpr ⟨[], hm, rfl⟩)
    · intro l hl hm
      exact h7 (List.any_eq_true.mpr ⟨l, hl, List.any_eq_true.mpr ⟨[], hm, rfl⟩⟩)
  · intro ⟨⟨h1, h2⟩, h3, h4, h5, h6, h7⟩
    have any_false : ∀ l : List Str, [] ∉ l → l.any List.isEmpty = false := by
      intro l hl
      rw [List.any_eq_false]
      intro s hs he
      cases s with
      | nil => exact hl hs
      | cons => cases he
    have n1 : p.name.isEmpty = false := by
      cases hn : p.name with
      | nil => exact absurd hn h1
      | cons => rfl
    have n2 : (p.name.all fun c => w.alnum c || c == '_' || c == '-') = true := by
      rw [List.all_eq_true]
      intro c hc
      have := h2 c hc
      simpa [or_assoc] using this
    have n3 : p.version.any (fun v => v.asStr.isEmpty) = false := by
      cases hv : p.version with
      | none => rfl
      | some v =>
        have := h3 v hv
        cases hs : v.asStr with
        | nil => exact absurd hs this
        | cons => simp [hs]
    have n4 : p.variants.any (fun v => v.any List.isEmpty) = false := by
      rw [List.any_eq_false]
      intro l hl
      rw [any_false l (h7 l hl)]
      simp
    rw [n1, n2, n3, any_false _ h4, any_false _ h5, any_false _ h6, n4]
    rfl

/-- The package that is built from the fields. -/
theorem declares_package {env : Py.Env} {s : Vars × Data} (hi : Inv env s) {name : Str} {version : Option Version}
    (hn : s.2.text c!"name" = some name)
    (hv : (s.2.text c!"version" = none ∧ version = none) ∨
      ∃ t v, s.2.text c!"version" = some t ∧ Version.parse t = some v ∧ version = some v) :
    Declares env (s.2.package name version) := by
  have strict : ∀ f, f ∈ textFields → f ∉ Py.functions → TextIs (mget env f) (s.2.text f) :=
    fun f h1 h2 => (hi.text f h1).2 h2
  have loose : ∀ f, f ∈ textFields → CommandIs (mget env f) (s.2.text f) := fun f h1 => (hi.text f h1).1
  refine ⟨?_, ?_, strict _ (by decide) (by decide), hi.list _ (by decide), hi.list _ (by decide), hi.list _ (by decide),
    hi.list _ (by decide), hi.variants, hi.list _ (by decide), hi.commands, rfl, strict _ (by decide) (by decide),
    strict _ (by decide) (by decide), loose _ (by decide), loose _ (by decide), loose _ (by decide),
    strict _ (by decide) (by decide), hi.tests, strict _ (by decide) (by decide), strict _ (by decide) (by decide),
    strict _ (by decide) (by decide), hi.bool _ (by decide), hi.bool _ (by decide), strict _ (by decide) (by decide),
    hi.bool _ (by decide), hi.bool _ (by decide), hi.list _ (by decide), hi.format, strict _ (by decide) (by decide),
    ⟨rfl, rfl, rfl, rfl, rfl, rfl, rfl, rfl, rfl, rfl, rfl⟩⟩
  · have := strict c!"name" (by decide) (by decide)
    rw [hn] at this
    exact this
  · refine ⟨s.2.text c!"version", strict _ (by decide) (by decide), ?_⟩
    rcases hv with ⟨h1, h2⟩ | ⟨t, v, h1, h2, h3⟩
    · exact .inl ⟨h1, h2⟩
    · exact .inr ⟨t, v, h1, h2, h3⟩

theorem build_ok {w : World} {d : Data} {p : Pkg} (h : build w d = .ok p) :
    ∃ name version, d.text c!"name" = some name ∧ p = d.package name version ∧ Acceptable w p ∧
      ((d.text c!"version" = none ∧ version = none) ∨
        ∃ t v, d.text c!"version" = some t ∧ Version.parse t = some v ∧ version = some v) := by
  unfold build at h
  split at h
  · cases h
  · rename_i name hn
    split at h
    · cases h
    · rename_i version hv
      simp only at h
      split at h
      · rename_i hval
        cases h
        refine ⟨name, version, hn, rfl, (validate_iff w _).mp hval, ?_⟩
        cases ht : d.text c!"version" with
        | none =>
          rw [ht] at hv
          cases hv
          exact .inl ⟨rfl, rfl⟩
        | some t =>
          rw [ht] at hv
          right
          cases hp : Version.parse t with
          | none => simp only [Option.elim, hp] at hv; cases hv
          | some v =>
            simp only [Option.elim, hp] at hv
            cases hv
            exact ⟨t, v, rfl, hp, rfl⟩
      · cases h

theorem textIs_det {o : Option Val} {a b : Option Str} (h1 : TextIs o a) (h2 : TextIs o b) : a = b := by
  cases o with
  | none => rw [show a = none from h1, show b = none from h2]
  | some v => rw [h1.2, h2.2]

theorem listIs_det {o : Option Val} {a b : List Str} (h1 : Py.ListIs o a) (h2 : Py.ListIs o b) : a = b := by
  cases o with
  | none => rw [show a = [] from h1, show b = [] from h2]
  | some v => exact Option.some.inj ((show Py.textsOf v = some a from h1).symm.trans h2)

theorem variantsIs_det {o : Option Val} {a b : List (List Str)} (h1 : Py.VariantsIs o a) (h2 : Py.VariantsIs o b) :
    a = b := by
  cases o with
  | none => rw [show a = [] from h1, show b = [] from h2]
  | some v =>
    cases v with
    | list l => exact Option.some.inj ((show l.mapM Py.textsOf = some a from h1).symm.trans h2)
    | _ => exact h1.elim

/-- The variables of the file and the fields read from it. -/
theorem plain_cases {w : World} {f : List Stmt} (hp : Plain w f) :
    (namespaceOf false w f = .raises ∧ ∀ s, processAll w ([], {}) f ≠ .ok s) ∨
      ∃ env s, namespaceOf true w f = .ok env ∧ namespaceOf false w f = .ok env ∧ processAll w ([], {}) f = .ok s ∧
        Inv env s := by
  have h := keep_execAll (w := w) f [] ([], {}) inv_start
  have hsub := sub_execAll w [] f
  unfold Plain at hp
  unfold namespaceOf at hp ⊢
  rcases hsub with hb | he
  · exact absurd hb hp
  · cases hr : Py.execAll true w [] f with
    | beyond => exact absurd hr hp
    | raises =>
      rw [hr] at h he
      exact .inl ⟨he, h⟩
    | ok env =>
      rw [hr] at h he
      obtain ⟨s, hs, hi⟩ := h
      exact .inr ⟨env, s, rfl, he, hs, hi⟩

end PyProps
open PyProps Rez.PyLemmas

/-! ## C137: the file is read as Python reads it -/

/-- C137: for every file within the common ground (`Plain`: no use of the features listed below, which are read
differently or refused), what is read is what Python makes of the file. When Python raises an exception nothing is read;
when Python runs the file, a package that is read has exactly the fields that the variables of the file declare. -/
theorem C137_reads_partial (w : World) (f : List Stmt) (hp : Plain w f) :
    (namespaceOf false w f = .raises → ∀ p, load w f ≠ .ok p) ∧
    (∀ env p, namespaceOf false w f = .ok env → load w f = .ok p → Declares env p) := by
  refine ⟨fun hr p hl => ?_, fun env p he hl => ?_⟩
  · rcases plain_cases hp with ⟨_, hno⟩ | ⟨env, s, _, he, _, _⟩
    · exact bind_not_ok hno p hl
    · rw [hr] at he; cases he
  · rcases plain_cases hp with ⟨hr, _⟩ | ⟨env', s, _, he', hs, hi⟩
    · rw [hr] at he; cases he
    · rw [he] at he'
      cases he'
      unfold load at hl
      rw [hs] at hl
      obtain ⟨name, version, hn, rfl, _, hv⟩ := build_ok hl
      exact declares_package hi hn hv

/-- C137: such a file that Python runs is read exactly when it declares an acceptable package: one with a proper name,
a version that can be parsed and no empty requirement. The program never panics on it. -/
theorem C137_accepts_partial (w : World) (f : List Stmt) (hp : Plain w f) (env : Py.Env)
    (he : namespaceOf false w f = .ok env) :
    ((∃ p, load w f = .ok p) ↔ ∃ p, Declares env p ∧ Acceptable w p) ∧ load w f ≠ .panic := by
  rcases plain_cases hp with ⟨hr, _⟩ | ⟨env', s, _, he', hs, hi⟩
  · rw [hr] at he; cases he
  rw [he] at he'
  cases he'
  have hload : load w f = build w s.2 := by unfold load; rw [hs]; rfl
  rw [hload]
  refine ⟨⟨fun ⟨p, hl⟩ => ?_, fun ⟨p, hd, ha⟩ => ?_⟩, ?_⟩
  · obtain ⟨name, version, hn, rfl, ha, hv⟩ := build_ok hl
    exact ⟨_, declares_package hi hn hv, ha⟩
  · have hname := textIs_det ((hi.text c!"name" (by decide)).2 (by decide)) hd.name
    obtain ⟨t, ht, hver⟩ := hd.version
    have hvers := textIs_det ((hi.text c!"version" (by decide)).2 (by decide)) ht
    have hval : (s.2.package p.name p.version).validate w.alnum = true := by
      rw [validate_iff]
      have h1 : (s.2.package p.name p.version).requires = p.requires := listIs_det (hi.list c!"requires" (by decide)) hd.requires
      have h2 : (s.2.package p.name p.version).buildRequires = p.buildRequires := listIs_det (hi.list c!"build_requires" (by decide)) hd.buildRequires
      have h3 : (s.2.package p.name p.version).privateBuildRequires = p.privateBuildRequires := listIs_det (hi.list c!"private_build_requires" (by decide)) hd.privateBuildRequires
      have h4 : (s.2.package p.name p.version).variants = p.variants := variantsIs_det hi.variants hd.variants
      exact ⟨ha.name, ha.version, h1 ▸ ha.requires, h2 ▸ ha.buildRequires, h3 ▸ ha.privateBuildRequires, h4 ▸ ha.variants⟩
    refine ⟨s.2.package p.name p.version, ?_⟩
    unfold build
    rw [hname, hvers]
    rcases hver with ⟨rfl, h2⟩ | ⟨x, v, rfl, h2, h3⟩
    · rw [h2] at hval ⊢
      simp only [Option.elim]
      rw [if_pos hval]
    · rw [h3] at hval ⊢
      simp only [Option.elim, h2, Option.map_some]
      rw [if_pos hval]
  · unfold build
    split
    · exact fun h => by cases h
    · split
      · exact fun h => by cases h
      · simp only
        split
        · exact fun h => by cases h
        · exact fun h => by cases h

/-! ### A file that meets the hypotheses -/

namespace PyProps

/-- A file with expressions, a condition and a list:
```
name = "p"
major = 2
version = "{0}.{1}".format(major, 1 + 2)
import os
if os.name == "posix" and not False:
    requires = ["a-" + version, "b"]
else:
    requires = []
variants = [["c-1"], ["c-2", "d"]]
description = "x" if major > 1 else "y"
relocatable = True
``` -/
def sample : List Stmt :=
  file
    [ set c!"major" (number 2),
      set c!"version" (.call (.attr (text c!"{0}.{1}") c!"format") [.name c!"major", .bin (number 1) .add (number 2)] false),
      .imports [(c!"os", c!"os")],
      .ifStmt (.and [.cmp (.attr (.name c!"os") c!"name") [(.eq, text c!"posix")], .un .not (.const (.bool false))])
        [set c!"requires" (.list [.bin (text c!"a-") .add (.name c!"version"), text c!"b"])]
        [set c!"requires" (.list [])],
      set c!"variants" (.list [.list [text c!"c-1"], .list [text c!"c-2", text c!"d"]]),
      set c!"description" (.ifexp (.cmp (.name c!"major") [(.gt, number 1)]) (text c!"x") (text c!"y")),
      set c!"relocatable" (.const (.bool true)) ]

/-- The variables of that file. -/
def sampleEnv : Py.Env :=
  [(c!"relocatable", .bool true), (c!"description", .str c!"x"),
   (c!"variants", .list [.list [.str c!"c-1"], .list [.str c!"c-2", .str c!"d"]]),
   (c!"requires", .list [.str c!"a-2.3", .str c!"b"]), (c!"os", .module c!"os"),
   (c!"version", .str c!"2.3"), (c!"major", .int 2), (c!"name", .str c!"p")]

end PyProps

example : namespaceOf true world sample = .ok sampleEnv := by rfl
example : Plain world sample := by
  unfold Plain
  rw [show namespaceOf true world sample = .ok sampleEnv from rfl]
  exact fun h => by cases h
example : ∃ p, load world sample = .ok p ∧ p.requires = [c!"a-2.3", c!"b"] ∧ p.description = some c!"x" :=
  ⟨_, rfl, rfl, rfl⟩
/-- An exception within the common ground: an undefined name. -/
example : namespaceOf true world (file [set c!"description" (.name c!"nope")]) = .raises := by rfl

/-! ### What is read differently

The general statement, without `Plain`, fails in all these ways. -/

/-- C137: comparisons are not chained as in Python: `1 < 3 < 2` is false, and is read as true (every operand is compared
with the first). -/
theorem C137_chain_false : Misread world
    (file [set c!"description" (.ifexp (.cmp (number 1) [(.lt, number 3), (.lt, number 2)]) (text c!"a") (text c!"b"))])
    c!"b" (some c!"a") :=
  ⟨_, _, rfl, rfl, rfl, rfl, by decide⟩

/-- C137: `or` returns an operand in Python; `"" or "x"` is the text `x`, and is read as `false`. -/
theorem C137_or_false : Misread world (file [set c!"description" (.or [text c!"", text c!"x"])])
    c!"x" (some c!"false") :=
  ⟨_, _, rfl, rfl, rfl, rfl, by decide⟩

/-- C137: an assignment that uses its own variable is evaluated twice: after `description = "a"`,
`description = description + "b"` gives `ab`, and is read as `abb`. -/
theorem C137_twice_false : Misread world
    (file [set c!"description" (text c!"a"), set c!"description" (.bin (.name c!"description") .add (text c!"b"))])
    c!"ab" (some c!"abb") :=
  ⟨_, _, rfl, rfl, rfl, rfl, by decide⟩

/-- C137: only the first target of `name = description = "p"` is assigned. -/
theorem C137_targets_false : Misread world [.assign [.name c!"name", .name c!"description"] (text c!"p")]
    c!"p" (none) :=
  ⟨_, _, rfl, rfl, rfl, rfl, by decide⟩

/-- C137: an assignment to a tuple is dropped. -/
theorem C137_unpack_false : Misread world
    (file [.assign [.tuple [.name c!"description", .name c!"uuid"]] (.tuple [text c!"a", text c!"b"])])
    c!"a" (none) :=
  ⟨_, _, rfl, rfl, rfl, rfl, by decide⟩

/-- C137: the places `{}` of `format` are not filled. -/
theorem C137_format_false : Misread world
    (file [set c!"description" (.call (.attr (text c!"a{}") c!"format") [text c!"b"] false)])
    c!"ab" (some c!"a{}") :=
  ⟨_, _, rfl, rfl, rfl, rfl, by decide⟩

/-- C137: what `format` puts in is looked at again: `"{0}{1}".format("{1}", "x")` is `{1}x`, and is read as `xx`. -/
theorem C137_format_again_false : Misread world
    (file [set c!"description" (.call (.attr (text c!"{0}{1}") c!"format") [text c!"{1}", text c!"x"] false)])
    c!"{1}x" (some c!"xx") :=
  ⟨_, _, rfl, rfl, rfl, rfl, by decide⟩

/-- C137: escaped braces next to a place: `"{{{0}}}".format("x")` is `{x}`, and is read as `{{0}}`. -/
theorem C137_format_braces_false : Misread world
    (file [set c!"description" (.call (.attr (text c!"{{{0}}}") c!"format") [text c!"x"] false)])
    c!"{x}" (some c!"{{0}}") :=
  ⟨_, _, rfl, rfl, rfl, rfl, by decide⟩

/-- C137: `True` is written `true` by `format`. -/
theorem C137_format_bool_false : Misread world
    (file [set c!"description" (.call (.attr (text c!"{0}") c!"format") [.const (.bool true)] false)])
    c!"True" (some c!"true") :=
  ⟨_, _, rfl, rfl, rfl, rfl, by decide⟩

/-- C137: items of a dictionary given by `**` are dropped: the test of the other dictionary is not in the package. -/
theorem C137_spread_false :
    ∃ env p, namespaceOf false world (file
        [set c!"more" (.dict [(some (text c!"t"), text c!"run")]), set c!"tests" (.dict [(none, .name c!"more")])]) = .ok env ∧
      load world (file
        [set c!"more" (.dict [(some (text c!"t"), text c!"run")]), set c!"tests" (.dict [(none, .name c!"more")])]) = .ok p ∧
      mget env c!"tests" = some (.dict [(c!"t", .str c!"run")]) ∧ p.tests = [] :=
  ⟨_, _, rfl, rfl, rfl, rfl⟩

/-- C137: a format version beyond 32 bits is cut: `4294967298` is read as `2`. -/
theorem C137_format_version_false :
    ∃ env p, namespaceOf false world (file [set c!"format_version" (number 4294967298)]) = .ok env ∧
      load world (file [set c!"format_version" (number 4294967298)]) = .ok p ∧
      mget env c!"format_version" = some (.int 4294967298) ∧ p.formatVersion = some 2 :=
  ⟨_, _, rfl, rfl, rfl, rfl⟩

/-- C137: `commands = None` after a function keeps the commands of the function. -/
theorem C137_none_false :
    ∃ env p, namespaceOf false world (file
        [.function c!"commands" [.expr (.call (.name c!"info") [text c!"hi"] false)], set c!"commands" (.const .none)]) = .ok env ∧
      load world (file
        [.function c!"commands" [.expr (.call (.name c!"info") [text c!"hi"] false)], set c!"commands" (.const .none)]) = .ok p ∧
      mget env c!"commands" = some .none ∧ p.commands = some c!"info('hi')" :=
  ⟨_, _, rfl, rfl, rfl, rfl⟩

/-- C137: a negative repetition is empty in Python; here it asks for 2^64 - 1 repetitions and panics. -/
theorem C137_repeat_false : Crashes world (file [set c!"description" (.bin (text c!"ab") .mul (.un .minus (number 1)))]) :=
  ⟨_, rfl, rfl⟩

/-- C137: integers are unbounded in Python; here an overflow panics when the build checks it, and wraps around when it
does not: 2^63 is then read as -2^63. -/
theorem C137_overflow_false :
    Crashes world (file [set c!"description" (.bin (number 9223372036854775807) .add (number 1))]) ∧
    Misread { world with checks := false } (file [set c!"description" (.bin (number 9223372036854775807) .add (number 1))])
      c!"9223372036854775808" (some c!"-9223372036854775808") :=
  ⟨⟨_, rfl, rfl⟩, ⟨_, _, rfl, rfl, rfl, rfl, by decide⟩⟩

/-- C137: a list plus a tuple raises an exception in Python, and is read as a list. -/
theorem C137_list_tuple_false : Overlooked world
    (file [set c!"requires" (.bin (.list [text c!"a"]) .add (.tuple [text c!"b"]))]) :=
  ⟨rfl, _, rfl⟩

/-- C137: `os` need not be imported, which raises an exception in Python. -/
theorem C137_import_false : Overlooked world (file [set c!"description" (.attr (.name c!"os") c!"name")]) :=
  ⟨rfl, _, rfl⟩

/-- C137: a function of any other name is refused. -/
theorem C137_function_false : Refused world (file [.function c!"helper" [.pass]]) := ⟨_, rfl, rfl⟩

/-- C137: conditions must be `True` or `False`: `if "x":` is refused. -/
theorem C137_truth_false : Refused world (file [.ifStmt (text c!"x") [.pass] []]) := ⟨_, rfl, rfl⟩

/-- C137: tests are only read as commands.  A test with more about it, such as `tests = {"unit": {"command": "pytest"}}`, makes
the file unreadable, wherever it is. -/
theorem C137_tests_false (w : World) (pre post : List Stmt) (k c : Str) (p : Pkg) :
    load w (pre ++ set c!"tests" (.dict [(some (text k), .dict [(some (text c!"command"), text c)])]) :: post) ≠ .ok p := by
  refine bind_not_ok (fun s => ?_) p
  rw [processAll_append]
  intro h
  cases hq : processAll w ([], {}) pre with
  | err => rw [hq] at h; cases h
  | panic => rw [hq] at h; cases h
  | ok s' =>
  rw [hq] at h
  have e : process w s' (set c!"tests" (.dict [(some (text k), .dict [(some (text c!"command"), text c)])])) = .err := rfl
  have h : processAll w s' (set c!"tests" (.dict [(some (text k), .dict [(some (text c!"command"), text c)])]) :: post) = .ok s := h
  rw [processAll, e] at h
  cases h

example : Refused world (file [set c!"tests" (.dict [(some (text c!"unit"), .dict [(some (text c!"command"), text c!"pytest")])])]) :=
  ⟨_, rfl, rfl⟩

/-! ## C138: commands -/

/-- C138: the commands that are kept for a command function do what the function does. The file is within the common
ground, and has the function among its statements, without anything of the same name later; the variables that the
function needs are not changed later. Then the text that is kept is read by Rex as the very actions of the function when
Python runs it after the file. -/
theorem C138_commands_partial (w : World) (pre post : List Stmt) (n : Str) (body : List Stmt) (env : Py.Env) (p : Pkg)
    (hp : Plain w (pre ++ .function n body :: post)) (hpost : n ∉ Py.assignedIn post)
    (he : namespaceOf false w (pre ++ .function n body :: post) = .ok env)
    (hsame : ∀ env0, namespaceOf false w pre = .ok env0 → ∀ x, Py.needs x body = true → mget env x = mget env0 x)
    (hl : load w (pre ++ .function n body :: post) = .ok p) :
    ∃ acts, Py.actions false w env body = .ok acts ∧ Performs (Py.commandText p n) acts := by
  rcases plain_cases hp with ⟨hr, _⟩ | ⟨env', s, htrue, he', hs, _⟩
  · rw [hr] at he; cases he
  rw [he] at he'
  cases he'
  unfold namespaceOf at htrue
  rw [execAll_append] at htrue
  obtain ⟨env0, h0, htrue⟩ := bind_ok htrue
  have h0' : namespaceOf false w pre = .ok env0 := by
    rcases sub_execAll w [] pre with hb | hb
    · rw [h0] at hb; cases hb
    · unfold namespaceOf; rw [hb, h0]
  have hk := keep_execAll (w := w) pre [] ([], {}) inv_start
  rw [h0] at hk
  obtain ⟨s0, hs0, hi0⟩ := hk
  rw [processAll_append, hs0] at hs
  have hs : processAll w s0 (.function n body :: post) = .ok s := hs
  unfold Py.execAll at htrue
  obtain ⟨env1, h1, _⟩ := bind_ok htrue
  unfold Py.exec at h1
  simp only [if_true] at h1
  split at h1
  · rename_i hn
    cases ha : Py.actions true w env0 body with
    | ok acts =>
      obtain ⟨d, hd, _, hsaid⟩ := definition_ok hi0 hn ha
      unfold processAll at hs
      rw [show process w s0 (.function n body) = .ok (s0.1, d) by unfold process; exact hd] at hs
      have hstay := staysAll post hpost (s0.1, d) s hs
      refine ⟨acts, ?_, ?_⟩
      · have hc := cong_actions (w := w) (g := env) (g' := env0) (body := body) (hsame env0 h0')
        rcases sub_actions w env body with hb | hb
        · rw [hc, ha] at hb; cases hb
        · rw [hb, hc, ha]
      · have hload : load w (pre ++ .function n body :: post) = build w s.2 := by
          unfold load
          rw [processAll_append, hs0]
          show PackagePy.bind (processAll w s0 (.function n body :: post)) _ = _
          unfold processAll
          rw [show process w s0 (.function n body) = .ok (s0.1, d) by unfold process; exact hd]
          show PackagePy.bind (processAll w (s0.1, d) post) _ = _
          rw [show processAll w (s0.1, d) post = .ok s from hs]
          rfl
        rw [hload] at hl
        obtain ⟨name, version, _, rfl, _, _⟩ := build_ok hl
        have : Py.commandText (s.2.package name version) n = Data.function s.2 n := by
          unfold Py.functions at hn
          simp only [List.mem_cons, List.not_mem_nil, or_false] at hn
          rcases hn with rfl | rfl | rfl | rfl <;> rfl
        rw [this, hstay]
        exact hsaid
    | raises => rw [ha] at h1; cases h1
    | beyond => rw [ha] at h1; cases h1
  · cases h1

/-! ### A function that meets the hypotheses -/

namespace PyProps

/-- ```
name = "p"
version = "1.2"
root = "/opt/p"
def commands():
    base = root + "/" + this.version.major
    env.PATH.prepend(base + "/bin")
    if this.name == "p":
        env.P_HOME = base
        alias("p", base + "/bin/p")
    else:
        stop("no")
description = "d"
``` -/
def commandsBody : List Stmt :=
  [ .assign [.name c!"base"] (.bin (.bin (.name c!"root") .add (text c!"/")) .add
      (.attr (.attr (.name c!"this") c!"version") c!"major")),
    .expr (.call (.attr (.attr (.name c!"env") c!"PATH") c!"prepend") [.bin (.name c!"base") .add (text c!"/bin")] false),
    .ifStmt (.cmp (.attr (.name c!"this") c!"name") [(.eq, text c!"p")])
      [ .assign [.attr (.name c!"env") c!"P_HOME"] (.name c!"base"),
        .expr (.call (.name c!"alias") [text c!"p", .bin (.name c!"base") .add (text c!"/bin/p")] false) ]
      [ .expr (.call (.name c!"stop") [text c!"no"] false) ] ]

def commandsPre : List Stmt :=
  file [set c!"version" (text c!"1.2"), set c!"root" (text c!"/opt/p")]

def commandsPost : List Stmt := [set c!"description" (text c!"d")]

def commandsEnv : Py.Env :=
  [(c!"description", .str c!"d"), (c!"commands", .func commandsBody), (c!"root", .str c!"/opt/p"),
   (c!"version", .str c!"1.2"), (c!"name", .str c!"p")]

def commandsActions : List Action :=
  [.prependPath c!"PATH" c!"/opt/p/1/bin" none, .setenv c!"P_HOME" c!"/opt/p/1", .alias c!"p" c!"/opt/p/1/bin/p"]

end PyProps

example : namespaceOf true world (commandsPre ++ .function c!"commands" commandsBody :: commandsPost) = .ok commandsEnv := by
  rfl
example : Py.actions false world commandsEnv commandsBody = .ok commandsActions := by rfl
example : ∃ p, load world (commandsPre ++ .function c!"commands" commandsBody :: commandsPost) = .ok p ∧
    Performs (Py.commandText p c!"commands") commandsActions := by
  refine ⟨_, rfl, ?_⟩
  decide +kernel
example : ∀ env0, namespaceOf false world commandsPre = .ok env0 →
    ∀ x, Py.needs x commandsBody = true → mget commandsEnv x = mget env0 x := by
  intro env0 h
  rw [show namespaceOf false world commandsPre =
    .ok [(c!"root", .str c!"/opt/p"), (c!"version", .str c!"1.2"), (c!"name", .str c!"p")] from rfl] at h
  cases h
  intro x hx
  have h1 : x ≠ c!"description" := by rintro rfl; exact absurd hx (by decide)
  have h2 : x ≠ c!"commands" := by rintro rfl; exact absurd hx (by decide)
  unfold commandsEnv
  rw [mget, if_neg (Ne.symm h1), mget, if_neg (Ne.symm h2)]

/-! ### Where commands go wrong -/

namespace PyProps

/-- The commands that are kept for a function are not read as what the function does. -/
def Miscommanded (w : World) (f : List Stmt) (body : List Stmt) : Prop :=
  ∃ env acts p, namespaceOf false w f = .ok env ∧ mget env c!"commands" = some (.func body) ∧
    Py.actions false w env body = .ok acts ∧ load w f = .ok p ∧ ¬ Performs (Py.commandText p c!"commands") acts

def call (f : Str) (args : List Expr) : Stmt := .expr (.call (.name f) args false)

end PyProps

/-- C138: a quote in a value ends the value: `info("it's")` is kept as a text that Rex reads as `info("it")`. -/
theorem C138_quote_false : Miscommanded world (file [.function c!"commands" [call c!"info" [text c!"it's"]]])
    [call c!"info" [text c!"it's"]] :=
  ⟨_, _, _, rfl, rfl, rfl, rfl, by decide +kernel⟩

/-- C138: `env["X"] = "v"` is dropped. -/
theorem C138_subscript_false : Miscommanded world
    (file [.function c!"commands" [.assign [.sub (.name c!"env") (text c!"X")] (text c!"v")]])
    [.assign [.sub (.name c!"env") (text c!"X")] (text c!"v")] :=
  ⟨_, _, _, rfl, rfl, rfl, rfl, by decide +kernel⟩

/-- C138: the commands are fixed when the function is defined: a version that is assigned later is not seen, although
Python calls the function after the file. -/
theorem C138_late_false : Miscommanded world
    (file [set c!"root" (text c!"/a"), .function c!"commands" [call c!"info" [.name c!"root"]], set c!"root" (text c!"/b")])
    [call c!"info" [.name c!"root"]] :=
  ⟨_, _, _, rfl, rfl, rfl, rfl, by decide +kernel⟩

/-- C138: `True` as an argument is kept as `true`. -/
theorem C138_bool_false : Miscommanded world
    (file [.function c!"commands" [call c!"setenv" [text c!"X", .const (.bool true)]]])
    [call c!"setenv" [text c!"X", .const (.bool true)]] :=
  ⟨_, _, _, rfl, rfl, rfl, rfl, by decide +kernel⟩

/-- C138: the parts of a version are cut at dots only: `this.version.major` of `1-2.3` is `1`, and is read as `1-2`. -/
theorem C138_parts_false : Miscommanded world
    (file [set c!"version" (text c!"1-2.3"),
      .function c!"commands" [call c!"info" [.attr (.attr (.name c!"this") c!"version") c!"major"]]])
    [call c!"info" [.attr (.attr (.name c!"this") c!"version") c!"major"]] :=
  ⟨_, _, _, rfl, rfl, rfl, rfl, by decide +kernel⟩

/-- C138: an assignment to an environment variable whose value cannot be evaluated is dropped without an error, while
Python raises an exception. -/
theorem C138_undefined_false :
    ∃ env p, namespaceOf false world (file [.function c!"commands" [.assign [.attr (.name c!"env") c!"X"] (.name c!"y")]]) = .ok env ∧
      Py.actions false world env [.assign [.attr (.name c!"env") c!"X"] (.name c!"y")] = .raises ∧
      load world (file [.function c!"commands" [.assign [.attr (.name c!"env") c!"X"] (.name c!"y")]]) = .ok p ∧
      p.commands = none :=
  ⟨_, _, rfl, rfl, rfl, rfl⟩

end Rez.Props
