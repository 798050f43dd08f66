import Verif.Model.View
import Verif.Spec.Serialization
import Verif.Spec.PackageQuery
/-!
# Specification: what is shown of a package

A fragment of YAML, and which fields are shown.
-/
namespace Rez.View.Spec
open Rez Rez.Serial Rez.View Rez.Spec.Serial

/-! ## YAML -/

/-- Values.  Whether a text is read as a number is left open. -/
inductive Node where
  | text (s : Str)
  | list (l : List Str)
  | lists (l : List (List Str))
  | table (l : List (Str × Str))

/-- A text that needs no quotes, also between brackets: letters, digits and signs without a meaning, beginning with a letter, a digit
or an underscore, not ending in a space. -/
def Bare (s : Str) : Prop :=
  s.head?.any (fun c => isAlpha c || isDigit c || c == '_') = true ∧ s.getLast? ≠ some ' ' ∧
  ∀ c ∈ s, 32 ≤ c.toNat ∧ c.toNat < 127 ∧ c ∉ c!":#,[]{}\"'\\"

instance (s : Str) : Decidable (Bare s) := by unfold Bare; infer_instance

/-- Mappings of keys to texts, lists, lists of lists, text blocks and tables. -/
inductive Yaml : Str → List (Str × Node) → Prop
  | done : Yaml [] []
  | blank {s : Str} {l : List (Str × Node)} : Yaml s l → Yaml ('\n' :: s) l
  | comment {t s : Str} {l : List (Str × Node)} : '\n' ∉ t → Yaml s l → Yaml ('#' :: t ++ c!"\n" ++ s) l
  | text {k t s : Str} {l : List (Str × Node)} : Bare k → Bare t → Yaml s l → Yaml (k ++ c!": " ++ t ++ c!"\n" ++ s) ((k, .text t) :: l)
  | list {k s : Str} {items : List Str} {l : List (Str × Node)} : Bare k → items ≠ [] → (∀ x ∈ items, Bare x) → Yaml s l →
      Yaml (k ++ c!":\n" ++ (items.flatMap fun x => c!"  - " ++ x ++ c!"\n") ++ s) ((k, .list items) :: l)
  | lists {k s : Str} {rows : List (List Str)} {l : List (Str × Node)} : Bare k → rows ≠ [] → (∀ r ∈ rows, ∀ x ∈ r, Bare x) → Yaml s l →
      Yaml (k ++ c!":\n" ++ (rows.flatMap fun r => c!"  - [" ++ joinWith c!", " r ++ c!"]\n") ++ s) ((k, .lists rows) :: l)
  /-- the first line says how far the block is indented; empty lines at the end do not count -/
  | block {k s first : Str} {body : List Str} {l : List (Str × Node)} : Bare k → (∃ c t, first = c :: t ∧ c ≠ ' ') →
      (∀ x ∈ first :: body, '\n' ∉ x) → (first :: body).getLast? ≠ some [] → Yaml s l →
      Yaml (k ++ c!": |\n" ++ ((first :: body).flatMap fun x => c!"  " ++ x ++ c!"\n") ++ s)
        ((k, .text ((first :: body).flatMap fun x => x ++ c!"\n")) :: l)
  | table {k s : Str} {rows : List (Str × Str)} {l : List (Str × Node)} : Bare k → rows ≠ [] → (∀ r ∈ rows, Bare r.1 ∧ Bare r.2) →
      Yaml s l → Yaml (k ++ c!":\n" ++ (rows.flatMap fun r => c!"  " ++ r.1 ++ c!": " ++ r.2 ++ c!"\n") ++ s) ((k, .table rows) :: l)

/-! ## What is shown -/

/-- A text, if there is one. -/
def textEntry (k : Str) (o : Option Str) : List (Str × Node) := o.elim [] fun s => [(k, .text s)]

/-- A list, if it is not empty. -/
def listEntry (k : Str) (l : List Str) : List (Str × Node) := if l = [] then [] else [(k, .list l)]

/-- The commands: each line ends with a line break. -/
def commandsEntry (o : Option Str) : List (Str × Node) :=
  o.elim [] fun s => [(c!"commands", .text ((linesOf s).flatMap fun x => x ++ c!"\n"))]

/-- The entries of the YAML text. -/
def entries (all : Bool) (p : Pkg) : List (Str × Node) :=
  [(c!"name", .text p.name)] ++ textEntry c!"version" (p.version.map Version.asStr) ++ textEntry c!"description" p.description ++
  listEntry c!"authors" p.authors ++ listEntry c!"requires" p.requires ++ listEntry c!"tools" p.tools ++
  (if p.variants = [] then [] else [(c!"variants", .lists p.variants)]) ++ textEntry c!"build_command" p.buildCommand ++
  textEntry c!"build_system" p.buildSystem ++ textEntry c!"uuid" p.uuid ++ commandsEntry p.commands ++
  if all then textEntry c!"pre_commands" p.preCommands ++ textEntry c!"post_commands" p.postCommands ++
    (if p.tests = [] then [] else [(c!"tests", .table p.tests)]) else []

/-- The texts that are shown as they are. -/
def texts (all : Bool) (p : Pkg) : List Str :=
  [p.name] ++ (p.version.map Version.asStr).toList ++ p.description.toList ++ p.authors ++ p.requires ++ p.tools ++
  p.variants.flatten ++ p.buildCommand.toList ++ p.buildSystem.toList ++ p.uuid.toList ++
  if all then p.preCommands.toList ++ p.postCommands.toList else []

/-- Commands that a text block can hold: the first line is not empty and not indented, the last is not empty. -/
def BlockText (s : Str) : Prop := (∃ c t rest, linesOf s = (c :: t) :: rest ∧ c ≠ ' ') ∧ (linesOf s).getLast? ≠ some []

/-- The statements of the Python text. -/
def statements (all : Bool) (p : Pkg) : List Stmt :=
  [.assign c!"name" (.str p.name)] ++ textStmt c!"version" (p.version.map Version.asStr) ++ textStmt c!"description" p.description ++
  listStmt c!"authors" p.authors ++ listStmt c!"requires" p.requires ++ listStmt c!"tools" p.tools ++ variantStmt p.variants ++
  textStmt c!"build_command" p.buildCommand ++ textStmt c!"build_system" p.buildSystem ++ textStmt c!"uuid" p.uuid ++
  if all then textStmt c!"pre_commands" p.preCommands ++ textStmt c!"post_commands" p.postCommands else []

/-- What is between the braces of a Python table of texts, with a comma after each entry. -/
inductive Dict : Str → List (Str × Str) → Prop
  | done {s : Str} : Blank s → Dict s []
  | more {a k b c v d rest key value : Str} {l : List (Str × Str)} : Blank a → Expr k (.str key) → Blank b → Blank c → Expr v (.str value) →
      Blank d → Dict rest l → Dict (a ++ k ++ b ++ c!":" ++ c ++ v ++ d ++ c!"," ++ rest) ((key, value) :: l)

/-- A package with the fields that are shown only. -/
def shownFields (a : Args) (p : Pkg) : Pkg :=
  { name := p.name, version := p.version, description := p.description, authors := p.authors, requires := p.requires,
    tools := p.tools, variants := p.variants, buildCommand := p.buildCommand, buildSystem := p.buildSystem, uuid := p.uuid,
    commands := if a.python then none else p.commands,
    preCommands := if a.all then p.preCommands else none,
    postCommands := if a.all then p.postCommands else none,
    tests := if a.all then p.tests else [] }

end Rez.View.Spec
