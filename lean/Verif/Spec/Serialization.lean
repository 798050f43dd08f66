import Verif.Model.Serialization
/-!
# Specification vocabulary for package files
-/
namespace Rez.Spec.Serial
open Rez Rez.Serial

/-- A package that the program can have: versions are parsed, numbers are in range, no test twice. -/
structure Made (p : Pkg) : Prop where
  version : ∀ v, p.version = some v → Version.parse v.asStr = some v
  previous : ∀ v, p.previousVersion = some v → Version.parse v.asStr = some v
  timestamp : ∀ n, p.timestamp = some n → -(2 ^ 63 : Int) ≤ n ∧ n < (2 ^ 63 : Int)
  formatVersion : ∀ n, p.formatVersion = some n → -(2 ^ 31 : Int) ≤ n ∧ n < (2 ^ 31 : Int)
  tests : (mkeys p.tests).Nodup

/-- What JSON, YAML and TOML documents keep of a value: TOML has no null. -/
def notNull (e : Str × Value) : Bool :=
  match e.2 with
  | .null => false
  | _ => true

/-- The formats read what they have written.  Nothing is assumed of indented YAML. -/
structure CodecsOk (c : Codecs) : Prop where
  json : ∀ pretty p, Made p → c.readJson (c.json pretty (.obj (serialize p))) = some (.obj (serialize p))
  jsonMeta : ∀ pretty m p, Made p → c.readJson (c.json pretty (container m p)) = some (container m p)
  yaml : ∀ p, Made p → c.readYaml (c.yaml false (.obj (serialize p))) = some (.obj (serialize p))
  yamlMeta : ∀ m p, Made p → c.readYaml (c.yaml false (container m p)) = some (container m p)
  toml : ∀ p s, Made p → c.toml (serialize p) = some s → c.readToml s = some ((serialize p).filter notNull)
  bincode : ∀ l, c.readBincode (c.bincode l) = some l
  gzip : ∀ n s, c.gunzip (c.gzip n s) = some s

/-- The fields that JSON and YAML files are read for. -/
def basic (p : Pkg) : Pkg :=
  { name := p.name, version := p.version, description := p.description, authors := p.authors, requires := p.requires,
    buildRequires := p.buildRequires, privateBuildRequires := p.privateBuildRequires, variants := p.variants, tools := p.tools }

/-- A package without the fields that are never written. -/
def written (p : Pkg) : Pkg :=
  { p with commandsFunction := none, config := [], isDev := none, filepath := none, includes := none }

/-- A package with name, version and description only. -/
def heading (p : Pkg) : Pkg := { name := p.name, version := p.version, description := p.description }

/-- No text of these has the character. -/
def Without (c : Char) (l : List Str) : Prop := ∀ s ∈ l, c ∉ s

/-- The texts of a package that XML files contain. -/
def xmlTexts (p : Pkg) : List Str :=
  [p.name] ++ (p.version.map Version.asStr).toList ++ p.description.toList ++ p.authors ++ p.requires

/-! ## Python

A fragment of Python: assignments of strings and lists, functions, comments and blank lines. -/

/-- What is between double quotes, and the string that it stands for. -/
inductive Literal : Str → Str → Prop
  | done : Literal [] []
  | char {c : Char} {s m : Str} : c ≠ '"' → c ≠ '\\' → c ≠ '\n' → c ≠ '\r' → Literal s m → Literal (c :: s) (c :: m)
  | quote {s m : Str} : Literal s m → Literal ('\\' :: '"' :: s) ('"' :: m)
  | backslash {s m : Str} : Literal s m → Literal ('\\' :: '\\' :: s) ('\\' :: m)

/-- Values. -/
inductive Py where
  | str (s : Str)
  | bool (b : Bool)
  | list (l : List Py)

/-- Spaces and line breaks, which do not count inside brackets. -/
def Blank (s : Str) : Prop := ∀ c ∈ s, c = ' ' ∨ c = '\n'

mutual
/-- Expressions. -/
inductive Expr : Str → Py → Prop
  | str {s m : Str} : Literal s m → Expr ('"' :: (s ++ ['"'])) (.str m)
  | single {s : Str} : (∀ c ∈ s, c ≠ '\'' ∧ c ≠ '\\' ∧ c ≠ '\n' ∧ c ≠ '\r') → Expr ('\'' :: (s ++ ['\''])) (.str s)
  | true : Expr c!"True" (.bool true)
  | false : Expr c!"False" (.bool false)
  | list {s : Str} {l : List Py} : Items s l → Expr ('[' :: (s ++ [']'])) (.list l)
/-- What is between brackets; a comma at the end is allowed. -/
inductive Items : Str → List Py → Prop
  | none {s : Str} : Blank s → Items s []
  | last {a s b : Str} {e : Py} : Blank a → Expr s e → Blank b → Items (a ++ s ++ b) [e]
  | more {a s b rest : Str} {e : Py} {l : List Py} :
      Blank a → Expr s e → Blank b → Items rest l → Items (a ++ s ++ b ++ ',' :: rest) (e :: l)
end

/-- Statements. -/
inductive Stmt where
  | assign (name : Str) (e : Py)
  | function (name : Str) (body : List Str)

/-- The lines of a function: blank, or indented by four. -/
def indented (body : List Str) : Str := body.flatMap fun l => (if l = [] then [] else c!"    " ++ l) ++ c!"\n"

/-- Programs. -/
inductive Program : Str → List Stmt → Prop
  | done : Program [] []
  | blank {s : Str} {l : List Stmt} : Program s l → Program ('\n' :: s) l
  | comment {t s : Str} {l : List Stmt} : '\n' ∉ t → Program s l → Program ('#' :: t ++ c!"\n" ++ s) l
  | assign {n t s : Str} {e : Py} {l : List Stmt} : (∀ c ∈ n, isAlpha c || c == '_') → n ≠ [] → Expr t e → Program s l →
      Program (n ++ c!" = " ++ t ++ c!"\n" ++ s) (.assign n e :: l)
  | function {n s : Str} {body : List Str} {l : List Stmt} : (∀ c ∈ n, isAlpha c || c == '_') → n ≠ [] →
      (∃ b ∈ body, b ≠ []) → Without '\n' body → Program s l →
      Program (c!"def " ++ n ++ c!"():\n" ++ indented body ++ s) (.function n body :: l)

/-- An assignment of a text, if there is one. -/
def textStmt (k : Str) (o : Option Str) : List Stmt := o.elim [] fun s => [.assign k (.str s)]

/-- An assignment of a list, if it is not empty. -/
def listStmt (k : Str) (l : List Str) : List Stmt := if l.isEmpty then [] else [.assign k (.list (l.map .str))]

/-- An assignment of variants, if there are any. -/
def variantStmt (l : List (List Str)) : List Stmt :=
  if l.isEmpty then [] else [.assign c!"variants" (.list (l.map fun v => .list (v.map .str)))]

/-- The statements that say what a package is, as far as `save_to_python` writes it. -/
def saved (p : Pkg) : List Stmt :=
  [.assign c!"name" (.str p.name)] ++ textStmt c!"version" (p.version.map Version.asStr) ++ textStmt c!"description" p.description ++
  listStmt c!"authors" p.authors ++ listStmt c!"requires" p.requires ++ listStmt c!"build_requires" p.buildRequires ++
  variantStmt p.variants ++ listStmt c!"tools" p.tools

/-- The texts that it writes. -/
def savedTexts (p : Pkg) : List Str :=
  [p.name] ++ (p.version.map Version.asStr).toList ++ p.description.toList ++ p.authors ++ p.requires ++ p.buildRequires ++
  p.variants.flatten ++ p.tools

/-- The lines of a function body, those that are only whitespace emptied. -/
def bodyOf (s : Str) : List Str := (linesOf s).map fun l => if (trim l).isEmpty then [] else l

/-- A function, if there is one. -/
def functionStmt (k : Str) (o : Option Str) : List Stmt := o.elim [] fun s => [.function k (bodyOf s)]

/-- The statements that say what a package is, as far as `to_package_py` writes it. -/
def described (p : Pkg) : List Stmt :=
  [.assign c!"name" (.str p.name)] ++ textStmt c!"version" (p.version.map Version.asStr) ++ textStmt c!"description" p.description ++
  listStmt c!"authors" p.authors ++ listStmt c!"requires" p.requires ++ listStmt c!"build_requires" p.buildRequires ++
  listStmt c!"private_build_requires" p.privateBuildRequires ++ variantStmt p.variants ++ listStmt c!"tools" p.tools ++
  textStmt c!"uuid" p.uuid ++ functionStmt c!"commands" p.commands ++ functionStmt c!"pre_commands" p.preCommands ++
  functionStmt c!"post_commands" p.postCommands

/-- The texts that it writes without escaping. -/
def rawTexts (p : Pkg) : List Str :=
  [p.name] ++ (p.version.map Version.asStr).toList ++ p.requires ++ p.buildRequires ++ p.privateBuildRequires ++
  p.variants.flatten ++ p.tools ++ p.uuid.toList

/-- The texts in which it escapes quotes. -/
def escapedTexts (p : Pkg) : List Str := p.description.toList ++ p.authors

/-- No character of these has a meaning in a Python string. -/
def Plain (l : List Str) : Prop := Without '"' l ∧ Without '\\' l ∧ Without '\n' l ∧ Without '\r' l

/-- A function is absent, or has a line that is not blank. -/
def HasBody (o : Option Str) : Prop := ∀ s, o = some s → ∃ b ∈ bodyOf s, b ≠ []

/-! ## Filters -/

/-- The field is to be left out. -/
def excluded (o : Options) (k : Str) : Prop := ∃ l, o.exclude = some l ∧ k ∈ l

/-- The field is to be kept. -/
def kept (o : Options) (k : Str) : Prop := ¬ excluded o k ∧ ∀ l, o.includeOnly = some l → k ∈ l

open Classical in
/-- The packages that the filters are meant for: without `include_fields`, four fields can be left out. -/
noncomputable def dropped (o : Options) (p : Pkg) : Pkg :=
  { p with
    description := if kept o c!"description" then p.description else none
    help := if kept o c!"help" then p.help else none
    authors := if kept o c!"authors" then p.authors else []
    tools := if kept o c!"tools" then p.tools else [] }

open Classical in
/-- With `include_fields`, the name and seven fields can be kept; three of them can be left out as well. -/
noncomputable def chosen (o : Options) (l : List Str) (p : Pkg) : Pkg :=
  { name := p.name
    version := if c!"version" ∈ l then p.version else none
    description := if kept o c!"description" then p.description else none
    authors := if kept o c!"authors" then p.authors else []
    requires := if c!"requires" ∈ l then p.requires else []
    buildRequires := if c!"build_requires" ∈ l then p.buildRequires else []
    variants := if c!"variants" ∈ l then p.variants else []
    tools := if kept o c!"tools" then p.tools else [] }

/-- Options without filters. -/
def unfiltered (o : Options) : Options := { o with includeOnly := none, exclude := none }

end Rez.Spec.Serial
