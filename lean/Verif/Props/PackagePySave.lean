import Verif.Spec.PackagePySave
import Verif.Props.Serialization
import Verif.Props.PackagePy
import Verif.Lemmas.PackagePyText
/-!
# C139: package.py files that are saved and loaded
-/
namespace Rez.Props
open Rez.PackagePy
open Rez.Spec.Saved
open Rez.Serial (Pkg Codecs Options)
open Rez.Spec.Serial (textStmt listStmt variantStmt saved described savedTexts rawTexts escapedTexts Program Made)

namespace PySaveLemmas
open Rez.PyLemmas

/-- A text field that is assigned, if there is a text. -/
def putText (o : Option Str) (n : Str) (d : Data) : Data := o.elim d fun t => { d with texts := mset d.texts n (some t) }

/-- A list field that is assigned, if the list is not empty. -/
def putList (l : List Str) (n : Str) (d : Data) : Data := if l.isEmpty then d else { d with lists := mset d.lists n l }

/-- Variants that are assigned, if there are any. -/
def putVariants (l : List (List Str)) (d : Data) : Data := if l.isEmpty then d else { d with variants := l }

theorem text_put (o : Option Str) (n f : Str) (d : Data) : (putText o n d).text f = if f = n then o.or (d.text f) else d.text f := by
  cases o with
  | none => simp [putText]
  | some t => show ({ d with texts := mset d.texts n (some t) } : Data).text f = _; rw [text_set]; rfl

theorem list_put (l : List Str) (n f : Str) (d : Data) :
    (putList l n d).list f = if f = n then (if l.isEmpty then d.list f else l) else d.list f := by
  unfold putList
  split
  · simp
  · rw [list_set]

@[simp] theorem text_putList (l : List Str) (n f : Str) (d : Data) : (putList l n d).text f = d.text f := by
  unfold putList; split <;> rfl
@[simp] theorem text_putVariants (l : List (List Str)) (f : Str) (d : Data) : (putVariants l d).text f = d.text f := by
  unfold putVariants; split <;> rfl
@[simp] theorem list_putText (o : Option Str) (n f : Str) (d : Data) : (putText o n d).list f = d.list f := by
  cases o <;> rfl
@[simp] theorem list_putVariants (l : List (List Str)) (f : Str) (d : Data) : (putVariants l d).list f = d.list f := by
  unfold putVariants; split <;> rfl
@[simp] theorem bool_putText (o : Option Str) (n f : Str) (d : Data) : (putText o n d).bool f = d.bool f := by
  cases o <;> rfl
@[simp] theorem bool_putList (l : List Str) (n f : Str) (d : Data) : (putList l n d).bool f = d.bool f := by
  unfold putList; split <;> rfl
@[simp] theorem bool_putVariants (l : List (List Str)) (f : Str) (d : Data) : (putVariants l d).bool f = d.bool f := by
  unfold putVariants; split <;> rfl
@[simp] theorem variants_putText (o : Option Str) (n : Str) (d : Data) : (putText o n d).variants = d.variants := by
  cases o <;> rfl
@[simp] theorem variants_putList (l : List Str) (n : Str) (d : Data) : (putList l n d).variants = d.variants := by
  unfold putList; split <;> rfl
@[simp] theorem variants_put (l : List (List Str)) (d : Data) : (putVariants l d).variants = if l.isEmpty then d.variants else l := by
  unfold putVariants; split <;> rfl
@[simp] theorem tests_putText (o : Option Str) (n : Str) (d : Data) : (putText o n d).tests = d.tests := by
  cases o <;> rfl
@[simp] theorem tests_putList (l : List Str) (n : Str) (d : Data) : (putList l n d).tests = d.tests := by
  unfold putList; split <;> rfl
@[simp] theorem tests_put (l : List (List Str)) (d : Data) : (putVariants l d).tests = d.tests := by
  unfold putVariants; split <;> rfl
@[simp] theorem format_putText (o : Option Str) (n : Str) (d : Data) : (putText o n d).formatVersion = d.formatVersion := by
  cases o <;> rfl
@[simp] theorem format_putList (l : List Str) (n : Str) (d : Data) : (putList l n d).formatVersion = d.formatVersion := by
  unfold putList; split <;> rfl
@[simp] theorem format_put (l : List (List Str)) (d : Data) : (putVariants l d).formatVersion = d.formatVersion := by
  unfold putVariants; split <;> rfl
@[simp] theorem commands_putText (o : Option Str) (n : Str) (d : Data) : (putText o n d).commands = d.commands := by
  cases o <;> rfl
@[simp] theorem commands_putList (l : List Str) (n : Str) (d : Data) : (putList l n d).commands = d.commands := by
  unfold putList; split <;> rfl
@[simp] theorem commands_put (l : List (List Str)) (d : Data) : (putVariants l d).commands = d.commands := by
  unfold putVariants; split <;> rfl

theorem step_text (w : World) (s : Vars × Data) {n : Str} (hn : n ∈ textFields) (o : Option Str) :
    ∃ vars, processAll w s ((textStmt n o).map stmtOf) = .ok (vars, putText o n s.2) := by
  cases o with
  | none => exact ⟨s.1, by rw [show (textStmt n none).map stmtOf = [] from rfl, processAll]; rfl⟩
  | some t =>
    refine ⟨mset s.1 n (.str t), ?_⟩
    rw [show (textStmt n (some t)).map stmtOf = [.assign [.name n] (.const (.str t))] from rfl]
    unfold processAll process
    have : setField w (mset s.1 n (.str t)) n (.const (.str t)) s.2 = .ok { s.2 with texts := mset s.2.texts n (some t) } := by
      unfold setField
      rw [if_pos hn]
      unfold extractText
      rw [PackagePy.eval]
      rfl
    unfold assignment
    simp only
    rw [PackagePy.eval]
    show PackagePy.bind (PackagePy.map _ (setField w (mset s.1 n (.str t)) n (.const (.str t)) s.2)) _ = _
    rw [this]
    unfold processAll
    rfl

theorem eval_texts (w : World) (vars : Vars) : ∀ l : List Str,
    PackagePy.evalList w vars (exprsOf (l.map .str)) = .ok (l.map .str)
  | [] => by rw [List.map_nil, exprsOf, PackagePy.evalList]; rfl
  | s :: l => by
    rw [List.map_cons, exprsOf, exprOf, PackagePy.evalList, PackagePy.eval, eval_texts w vars l]
    rfl

theorem items_texts (w : World) : ∀ l : List Str, itemTexts w (l.map .str) = .ok l
  | [] => rfl
  | s :: l => by
    rw [List.map_cons, itemTexts, items_texts w l]
    rfl

theorem eval_list (w : World) (vars : Vars) (l : List Str) :
    PackagePy.eval w vars (.list (exprsOf (l.map .str))) = .ok (.list (l.map .str)) := by
  rw [PackagePy.eval, eval_texts]
  rfl

theorem extract_list (w : World) (vars : Vars) (l : List Str) :
    extractList w vars (.list (exprsOf (l.map .str))) = .ok l := by
  unfold extractList
  rw [eval_list]
  exact items_texts w l

theorem step_list (w : World) (s : Vars × Data) {n : Str} (hn : n ∈ listFields) (ht : n ∉ textFields) (l : List Str) :
    ∃ vars, processAll w s ((listStmt n l).map stmtOf) = .ok (vars, putList l n s.2) := by
  unfold listStmt putList
  split
  · exact ⟨s.1, by rw [show ([] : List Spec.Serial.Stmt).map stmtOf = [] from rfl, processAll]⟩
  · refine ⟨mset s.1 n (.list (l.map .str)), ?_⟩
    rw [show [Spec.Serial.Stmt.assign n (.list (l.map .str))].map stmtOf =
      [.assign [.name n] (.list (exprsOf (l.map .str)))] by rw [List.map_cons, stmtOf, exprOf]; rfl]
    unfold processAll process
    have : setField w (mset s.1 n (.list (l.map .str))) n (.list (exprsOf (l.map .str))) s.2 =
        .ok { s.2 with lists := mset s.2.lists n l } := by
      unfold setField
      rw [if_neg ht, if_pos hn, extract_list]
      rfl
    unfold assignment
    simp only
    rw [eval_list]
    show PackagePy.bind (PackagePy.map _ (setField w (mset s.1 n (.list (l.map .str))) n (.list (exprsOf (l.map .str))) s.2)) _ = _
    rw [this]
    unfold processAll
    rfl

theorem eval_lists (w : World) (vars : Vars) : ∀ l : List (List Str),
    PackagePy.evalList w vars (exprsOf (l.map fun v => .list (v.map .str))) = .ok (l.map fun v => .list (v.map .str))
  | [] => by rw [List.map_nil, exprsOf, PackagePy.evalList]; rfl
  | s :: l => by
    rw [List.map_cons, exprsOf, exprOf, PackagePy.evalList, eval_list, eval_lists w vars l]
    rfl

theorem extract_lists (w : World) (vars : Vars) : ∀ l : List (List Str),
    extractLists w vars (exprsOf (l.map fun v => .list (v.map .str))) = .ok l
  | [] => by rw [List.map_nil, exprsOf, extractLists]
  | s :: l => by
    rw [List.map_cons, exprsOf, exprOf, extractLists, extract_list, extract_lists w vars l]
    rfl

theorem step_variants (w : World) (s : Vars × Data) (l : List (List Str)) :
    ∃ vars, processAll w s ((variantStmt l).map stmtOf) = .ok (vars, putVariants l s.2) := by
  unfold variantStmt putVariants
  split
  · exact ⟨s.1, by rw [show ([] : List Spec.Serial.Stmt).map stmtOf = [] from rfl, processAll]⟩
  · refine ⟨mset s.1 c!"variants" (.list (l.map fun v => .list (v.map .str))), ?_⟩
    rw [show [Spec.Serial.Stmt.assign c!"variants" (.list (l.map fun v => .list (v.map .str)))].map stmtOf =
      [.assign [.name c!"variants"] (.list (exprsOf (l.map fun v => .list (v.map .str))))] by
        rw [List.map_cons, stmtOf, exprOf]; rfl]
    unfold processAll process
    have : ∀ vars, setField w vars c!"variants" (.list (exprsOf (l.map fun v => .list (v.map .str)))) s.2 =
        .ok { s.2 with variants := l } := by
      intro vars
      show PackagePy.map _ (extractLists w vars (exprsOf (l.map fun v => .list (v.map .str)))) = _
      rw [extract_lists]
      rfl
    unfold assignment
    simp only
    rw [PackagePy.eval, eval_lists]
    simp only [PackagePy.map, PackagePy.bind]
    rw [this]
    simp only
    rw [processAll]

/-- What statements do to the fields, whatever the variables are. -/
def Does (w : World) (a : List Stmt) (f : Data → Data) : Prop := ∀ s, ∃ vars, processAll w s a = .ok (vars, f s.2)

theorem Does.append {w : World} {a b : List Stmt} {d e : Data → Data} (h1 : Does w a d) (h2 : Does w b e) :
    Does w (a ++ b) (fun x => e (d x)) := by
  intro s
  obtain ⟨v, hv⟩ := h1 s
  obtain ⟨u, hu⟩ := h2 (v, d s.2)
  exact ⟨u, by rw [processAll_append, hv]; exact hu⟩

theorem does_text (w : World) (n : Str) (hn : n ∈ textFields) (o : Option Str) : Does w ((textStmt n o).map stmtOf) (putText o n) :=
  fun s => step_text w s hn o

theorem does_list (w : World) (n : Str) (hn : n ∈ listFields) (ht : n ∉ textFields) (l : List Str) :
    Does w ((listStmt n l).map stmtOf) (putList l n) := fun s => step_list w s hn ht l

theorem does_variants (w : World) (l : List (List Str)) : Does w ((variantStmt l).map stmtOf) (putVariants l) :=
  fun s => step_variants w s l

theorem text_empty (f : Str) : ({} : Data).text f = none := rfl
theorem list_empty (f : Str) : ({} : Data).list f = [] := rfl
theorem bool_empty (f : Str) : ({} : Data).bool f = none := rfl

theorem list_keep (l : List Str) : (if l.isEmpty then [] else l) = l := by
  cases l <;> rfl

theorem variants_keep (l : List (List Str)) : (if l.isEmpty then [] else l) = l := by
  cases l <;> rfl

theorem does_saved (w : World) (p : Pkg) : Does w ((saved p).map stmtOf) fun x =>
    putList p.tools c!"tools" <| putVariants p.variants <| putList p.buildRequires c!"build_requires" <|
    putList p.requires c!"requires" <| putList p.authors c!"authors" <| putText p.description c!"description" <|
    putText (p.version.map Version.asStr) c!"version" <| putText (some p.name) c!"name" x := by
  have h := ((((((((does_text w c!"name" (by decide) (some p.name)).append
    (does_text w c!"version" (by decide) (p.version.map Version.asStr))).append
    (does_text w c!"description" (by decide) p.description)).append
    (does_list w c!"authors" (by decide) (by decide) p.authors)).append
    (does_list w c!"requires" (by decide) (by decide) p.requires)).append
    (does_list w c!"build_requires" (by decide) (by decide) p.buildRequires)).append
    (does_variants w p.variants)).append
    (does_list w c!"tools" (by decide) (by decide) p.tools))
  simp only [← List.map_append] at h
  exact h

theorem does_described (w : World) (p : Pkg) (h1 : p.commands = none) (h2 : p.preCommands = none) (h3 : p.postCommands = none) :
    Does w ((described p).map stmtOf) fun x =>
    putText p.uuid c!"uuid" <| putList p.tools c!"tools" <| putVariants p.variants <|
    putList p.privateBuildRequires c!"private_build_requires" <| putList p.buildRequires c!"build_requires" <|
    putList p.requires c!"requires" <| putList p.authors c!"authors" <| putText p.description c!"description" <|
    putText (p.version.map Version.asStr) c!"version" <| putText (some p.name) c!"name" x := by
  have h := ((((((((((does_text w c!"name" (by decide) (some p.name)).append
    (does_text w c!"version" (by decide) (p.version.map Version.asStr))).append
    (does_text w c!"description" (by decide) p.description)).append
    (does_list w c!"authors" (by decide) (by decide) p.authors)).append
    (does_list w c!"requires" (by decide) (by decide) p.requires)).append
    (does_list w c!"build_requires" (by decide) (by decide) p.buildRequires)).append
    (does_list w c!"private_build_requires" (by decide) (by decide) p.privateBuildRequires)).append
    (does_variants w p.variants)).append
    (does_list w c!"tools" (by decide) (by decide) p.tools)).append
    (does_text w c!"uuid" (by decide) p.uuid))
  simp only [← List.map_append] at h
  have e : described p = textStmt c!"name" (some p.name) ++ textStmt c!"version" (p.version.map Version.asStr) ++
      textStmt c!"description" p.description ++ listStmt c!"authors" p.authors ++ listStmt c!"requires" p.requires ++
      listStmt c!"build_requires" p.buildRequires ++ listStmt c!"private_build_requires" p.privateBuildRequires ++
      variantStmt p.variants ++ listStmt c!"tools" p.tools ++ textStmt c!"uuid" p.uuid := by
    unfold described
    rw [h1, h2, h3]
    simp only [Spec.Serial.functionStmt, Option.elim, List.append_nil]
    rfl
  rw [e]
  exact h

theorem load_does {w : World} {a : List Stmt} {f : Data → Data} {p q : Pkg} (h : Does w a f)
    (hn : (f {}).text c!"name" = some p.name) (hv : (f {}).text c!"version" = p.version.map Version.asStr)
    (hm : ∀ v, p.version = some v → Version.parse v.asStr = some v) (hq : (f {}).package p.name p.version = q) :
    load w a = if q.validate w.alnum then .ok q else .err := by
  obtain ⟨vars, hs⟩ := h ([], {})
  unfold load
  rw [hs]
  show build w (f {}) = _
  unfold build
  rw [hn, hv]
  cases e : p.version with
  | none => simp only [Option.map, Option.elim]; rw [e] at hq; rw [hq]
  | some v =>
    simp only [Option.map, Option.elim]
    rw [hm v e]
    simp only
    rw [e] at hq
    rw [hq]

theorem load_saved (w : World) (p : Pkg) (hv : ∀ v, p.version = some v → Version.parse v.asStr = some v) :
    load w ((saved p).map stmtOf) = if (kept p).validate w.alnum then .ok (kept p) else .err := by
  refine load_does (does_saved w p) ?_ ?_ hv ?_
  · simp [text_put]
  · simp [text_put, text_empty]
  · simp [Data.package, kept, text_put, list_put, list_keep, text_empty, list_empty, bool_empty, Serial.Pkg.new]

theorem load_described (w : World) (p : Pkg) (hv : ∀ v, p.version = some v → Version.parse v.asStr = some v)
    (h1 : p.commands = none) (h2 : p.preCommands = none) (h3 : p.postCommands = none) :
    load w ((described p).map stmtOf) = if (exported p).validate w.alnum then .ok (exported p) else .err := by
  refine load_does (does_described w p h1 h2 h3) ?_ ?_ hv ?_
  · simp [text_put]
  · simp [text_put, text_empty]
  · simp [Data.package, exported, text_put, list_put, list_keep, text_empty, list_empty, bool_empty, Serial.Pkg.new]

theorem assigns_text (n : Str) (o : Option Str) : PyText.Assigns (textStmt n o) := by
  intro st hs
  cases o with
  | none => cases hs
  | some t => rw [show st = .assign n (.str t) by simpa [textStmt] using hs]; exact ⟨_, _, rfl⟩

theorem assigns_list (n : Str) (l : List Str) : PyText.Assigns (listStmt n l) := by
  intro st hs
  unfold listStmt at hs
  split at hs
  · cases hs
  · rw [List.mem_singleton.mp hs]; exact ⟨_, _, rfl⟩

theorem assigns_variants (l : List (List Str)) : PyText.Assigns (variantStmt l) := by
  intro st hs
  unfold variantStmt at hs
  split at hs
  · cases hs
  · rw [List.mem_singleton.mp hs]; exact ⟨_, _, rfl⟩

theorem assigns_append {a b : List Spec.Serial.Stmt} (ha : PyText.Assigns a) (hb : PyText.Assigns b) : PyText.Assigns (a ++ b) := by
  intro st hs
  rcases List.mem_append.mp hs with h | h
  · exact ha st h
  · exact hb st h

theorem assigns_saved (p : Pkg) : PyText.Assigns (saved p) := by
  unfold saved
  repeat' apply assigns_append
  all_goals first
    | exact assigns_text _ _
    | exact assigns_list _ _
    | exact assigns_variants _
    | exact assigns_text c!"name" (some p.name)

theorem assigns_described (p : Pkg) (h1 : p.commands = none) (h2 : p.preCommands = none) (h3 : p.postCommands = none) :
    PyText.Assigns (described p) := by
  unfold described
  rw [h1, h2, h3]
  repeat' apply assigns_append
  all_goals first
    | exact assigns_text _ _
    | exact assigns_list _ _
    | exact assigns_variants _
    | exact assigns_text c!"name" (some p.name)
    | exact fun st hs => (List.not_mem_nil hs).elim

open Classical in
/-- A parser of programs that are made of assignments. -/
noncomputable def parser (s : Str) : Option (List Stmt) :=
  if h : ∃ l, Program s l ∧ PyText.Assigns l then some (h.choose.map stmtOf) else none

/-- There is such a parser, as texts can be read in one way only. -/
theorem parser_ok : ParserOk parser := by
  intro s l hl ha
  have h : ∃ l, Program s l ∧ PyText.Assigns l := ⟨l, hl, ha⟩
  unfold parser
  rw [dif_pos h, PyText.program_unique h.choose_spec.1 h.choose_spec.2 hl ha rfl]

end PySaveLemmas

open PySaveLemmas

/-- C139: a package that is saved as Python is loaded with all that the file says, if no text has quotes, backslashes or line
breaks; it cannot be loaded if what is kept is not valid.  Missing: those texts, and the fields that are not written. -/
theorem C139_save_partial (c : Codecs) (w : World) (parse : Str → Option (List Stmt)) (hparse : ParserOk parse)
    (hc : ReadsPython c w parse) (metadata : Serial.Value) (now : Str) (hn : '\n' ∉ now) (o : Option Options)
    (hi : (o.getD Options.new).includeOnly = none) (he : (o.getD Options.new).exclude = none) (p : Pkg) (hp : Made p)
    (ht : Spec.Serial.Plain (savedTexts p)) (path : Str) (hf : Serial.formatOf path = some .python) :
    ∃ s, Serial.save c metadata now o p .python = some s ∧
      Serial.load c w.alnum path s = if (kept p).validate w.alnum then .ok (kept p) else .err := by
  have hfilt : Serial.filterFields (o.getD Options.new) p = p := by unfold Serial.filterFields; rw [hi, he]; rfl
  refine ⟨Serial.toPython now (o.getD Options.new) p, ?_, ?_⟩
  · unfold Serial.save Serial.saveText
    simp only [reduceCtorEq, if_false, Serial.Format.compressed, Bool.false_eq_true]
    rw [hfilt]
  · unfold Serial.load
    rw [hf]
    simp only [reduceCtorEq, if_false, Serial.Format.compressed, Bool.false_eq_true, Serial.loadText]
    rw [hc, hparse _ _ (C135_python_partial now _ p hn ht) (assigns_saved p)]
    show Serial.result (match load w ((saved p).map stmtOf) with | .ok p => some p | _ => none) = _
    rw [load_saved w p hp.version]
    by_cases hval : (kept p).validate w.alnum = true
    · rw [if_pos hval]; rfl
    · rw [if_neg hval]; rfl

namespace PySaveLemmas

/-- Codecs with a reader of Python. -/
noncomputable def codecs : Codecs :=
  { SerialLemmas.demo with
    python := fun s => (parser s).bind fun f =>
      match load PyProps.world f with
      | .ok p => some p
      | _ => none }

theorem codecs_ok : ReadsPython codecs PyProps.world parser := fun _ => rfl

/-- A package to save. -/
def crate : Pkg := { SerialLemmas.box with description := some c!"A small box", tests := [], commands := none }

theorem crate_made : Made crate :=
  ⟨SerialLemmas.box_made.version, SerialLemmas.box_made.previous, SerialLemmas.box_made.timestamp, SerialLemmas.box_made.formatVersion, List.nodup_nil⟩

end PySaveLemmas

example : ∃ s, Serial.save codecs .null c!"noon" none crate .python = some s ∧
    Serial.load codecs PyProps.world.alnum c!"a/package.py" s = .ok (kept crate) := by
  obtain ⟨s, hs, hl⟩ := C139_save_partial codecs PyProps.world parser parser_ok codecs_ok .null c!"noon" (by decide) none rfl rfl crate
    crate_made (by unfold Spec.Serial.Plain Spec.Serial.Without; exact ⟨by decide, by decide, by decide, by decide⟩) c!"a/package.py" rfl
  exact ⟨s, hs, by rw [hl, if_pos (by decide)]⟩

/-- C139: the `package.py` that is written for a package without commands, flags and tests is loaded with its uuid too; quotes
in the description and in authors are kept.  Missing: other packages. -/
theorem C139_export_partial (c : Codecs) (w : World) (parse : Str → Option (List Stmt)) (hparse : ParserOk parse)
    (hc : ReadsPython c w parse) (p : Pkg) (hp : Made p) (hr : Spec.Serial.Plain (rawTexts p))
    (he : Spec.Serial.Without '\\' (escapedTexts p)) (hl : Spec.Serial.Without '\n' (escapedTexts p))
    (hcr : Spec.Serial.Without '\r' (escapedTexts p)) (hrel : p.relocatable = none) (hcach : p.cachable = none) (ht : p.tests = [])
    (h1 : p.commands = none) (h2 : p.preCommands = none) (h3 : p.postCommands = none) (path : Str)
    (hf : Serial.formatOf path = some .python) :
    Serial.load c w.alnum path (Serial.toPackagePy p ++ c!"\n") = if p.validate w.alnum then .ok (exported p) else .err := by
  have hb : ∀ o : Option Str, o = none → Spec.Serial.HasBody o := by rintro o rfl s hs; cases hs
  unfold Serial.load
  rw [hf]
  simp only [reduceCtorEq, if_false, Serial.Format.compressed, Bool.false_eq_true, Serial.loadText]
  rw [hc, hparse _ _ (C135_package_py_partial p hr he hl hcr hrel hcach ht (hb _ h1) (hb _ h2) (hb _ h3)) (assigns_described p h1 h2 h3)]
  show Serial.result (match load w ((described p).map stmtOf) with | .ok p => some p | _ => none) = _
  rw [load_described w p hp.version h1 h2 h3]
  have : (exported p).validate w.alnum = p.validate w.alnum := rfl
  rw [this]
  by_cases hval : p.validate w.alnum = true
  · rw [if_pos hval]; rfl
  · rw [if_neg hval]; rfl

/-- Another package to save. -/
def PySaveLemmas.chest : Pkg := { crate with description := some c!"A \"small\" box", uuid := some c!"1-2" }

theorem PySaveLemmas.chest_made : Made chest :=
  ⟨crate_made.version, crate_made.previous, crate_made.timestamp, crate_made.formatVersion, crate_made.tests⟩

example : Serial.load codecs PyProps.world.alnum c!"a/package.py"
    (Serial.toPackagePy chest ++ c!"\n") =
      .ok (exported chest) := by
  rw [C139_export_partial codecs PyProps.world parser parser_ok codecs_ok chest chest_made
    (by unfold Spec.Serial.Plain Spec.Serial.Without; exact ⟨by decide, by decide, by decide, by decide⟩)
    (by unfold Spec.Serial.Without; decide) (by unfold Spec.Serial.Without; decide) (by unfold Spec.Serial.Without; decide)
    rfl rfl rfl rfl rfl rfl _ rfl, if_pos (by decide)]

/-- C135: what is written is not said in another way: these are the only assignments that the text can be read as. -/
theorem C135_one_reading_partial (now : Str) (o : Options) (p : Pkg) (hn : '\n' ∉ now) (hp : Spec.Serial.Plain (savedTexts p))
    (l : List Spec.Serial.Stmt) (hl : Program (Serial.toPython now o p) l) (ha : ∀ st ∈ l, ∃ n e, st = .assign n e) : l = saved p :=
  PyText.program_unique hl ha (C135_python_partial now o p hn hp) (assigns_saved p) rfl

example : ∀ l, Program (Serial.toPython c!"noon" Options.new crate) l → (∀ st ∈ l, ∃ n e, st = .assign n e) → l = saved crate :=
  C135_one_reading_partial _ _ crate (by decide)
    (by unfold Spec.Serial.Plain Spec.Serial.Without; exact ⟨by decide, by decide, by decide, by decide⟩)

/-- C139 is false for the other fields: packages that differ in their private build requirements are saved as the same file, and
so are packages that differ in their commands. -/
theorem C139_fields_false (now : Str) (o : Options) :
    Serial.toPython now o { Pkg.new c!"a" with privateBuildRequires := [c!"cmake"] } = Serial.toPython now o (Pkg.new c!"a") ∧
    Serial.toPython now o { Pkg.new c!"a" with commands := some c!"env.X = 1" } = Serial.toPython now o (Pkg.new c!"a") :=
  ⟨rfl, rfl⟩

end Rez.Props
