import Verif.Model.PyPackage
import Verif.Spec.Serialization
/-!
# What packages as Python objects should be
-/
namespace Rez.Spec.PyPackage
open Rez Rez.Serial Rez.Spec.Serial

/-- What a dictionary says of an attribute: nothing, so that it is as in a new package, or a value that stands for it. -/
def Given {α : Type} (d : Fields) (k : Str) (Stands : Value → α → Prop) (new x : α) : Prop :=
  (mget d k = none ∧ x = new) ∨ ∃ v, mget d k = some v ∧ Stands v x

/-- A text stands for itself. -/
def Text (v : Value) (x : Option Str) : Prop := ∃ s, v = .str s ∧ x = some s

/-- A text stands for a version. -/
def Vers (v : Value) (x : Option Version) : Prop := ∃ s n, v = .str s ∧ Version.parse s = some n ∧ x = some n

/-- A truth value stands for itself. -/
def Flag (v : Value) (x : Option Bool) : Prop := ∃ b, v = .bool b ∧ x = some b

/-- A number of this many bits stands for itself, and a truth value for 0 or 1. -/
def Number (bits : Nat) (v : Value) (x : Option Int) : Prop :=
  (∃ n, v = .num n ∧ x = some n ∧ -(2 ^ bits : Int) ≤ n ∧ n < (2 ^ bits : Int)) ∨ (v = .bool true ∧ x = some 1) ∨ (v = .bool false ∧ x = some 0)

/-- A list of texts stands for itself. -/
def Texts (v : Value) (x : List Str) : Prop := v = .arr (x.map .str)

/-- A list of lists of texts stands for itself. -/
def Lists (v : Value) (x : List (List Str)) : Prop := v = .arr (x.map fun l => .arr (l.map .str))

/-- A dictionary of texts stands for itself. -/
def Table (v : Value) (x : List (Str × Str)) : Prop := v = .obj (x.map fun e => (e.1, .str e.2))

/-- The package that a dictionary describes. -/
structure Describes (d : Fields) (p : Pkg) : Prop where
  name : mget d c!"name" = some (.str p.name)
  version : Given d c!"version" Vers none p.version
  description : Given d c!"description" Text none p.description
  authors : Given d c!"authors" Texts [] p.authors
  requires : Given d c!"requires" Texts [] p.requires
  buildRequires : Given d c!"build_requires" Texts [] p.buildRequires
  privateBuildRequires : Given d c!"private_build_requires" Texts [] p.privateBuildRequires
  variants : Given d c!"variants" Lists [] p.variants
  tools : Given d c!"tools" Texts [] p.tools
  commands : Given d c!"commands" Text none p.commands
  uuid : Given d c!"uuid" Text none p.uuid
  timestamp : Given d c!"timestamp" (Number 63) none p.timestamp
  cachable : Given d c!"cachable" Flag none p.cachable
  relocatable : Given d c!"relocatable" Flag none p.relocatable
  formatVersion : Given d c!"format_version" (Number 31) none p.formatVersion
  vcs : Given d c!"vcs" Text none p.vcs
  changelog : Given d c!"changelog" Text none p.changelog
  releaseMessage : Given d c!"release_message" Text none p.releaseMessage
  revision : Given d c!"revision" Text none p.revision
  hashedVariants : Given d c!"hashed_variants" Flag none p.hashedVariants
  preprocess : Given d c!"preprocess" Text none p.preprocess
  isDev : Given d c!"is_dev_package" Flag none p.isDev
  pluginFor : Given d c!"plugin_for" Texts [] p.pluginFor
  buildCommand : Given d c!"build_command" Text none p.buildCommand
  buildSystem : Given d c!"build_system" Text none p.buildSystem
  preCommands : Given d c!"pre_commands" Text none p.preCommands
  postCommands : Given d c!"post_commands" Text none p.postCommands
  preTestCommands : Given d c!"pre_test_commands" Text none p.preTestCommands
  preBuildCommands : Given d c!"pre_build_commands" Text none p.preBuildCommands
  requiresRezVersion : Given d c!"requires_rez_version" Text none p.requiresRezVersion
  tests : Given d c!"tests" Table [] p.tests
  config : Given d c!"config" Table [] p.config
  /-- of the other attributes nothing can be said -/
  others : p.commandsFunction = none ∧ p.help = none ∧ p.previousVersion = none ∧ p.previousRevision = none ∧ p.base = none ∧
    p.hasPlugins = none ∧ p.filepath = none ∧ p.includes = none

/-- The attributes that a package has in its dictionary. -/
def told (p : Pkg) : Pkg :=
  { name := p.name, version := p.version, description := p.description, authors := p.authors, requires := p.requires,
    buildRequires := p.buildRequires, privateBuildRequires := p.privateBuildRequires, variants := p.variants, tools := p.tools,
    commands := p.commands, uuid := p.uuid, timestamp := p.timestamp, cachable := p.cachable, relocatable := p.relocatable,
    formatVersion := p.formatVersion }

/-- An assignment of a truth value, if there is one. -/
def flagStmt (k : Str) (o : Option Bool) : List Stmt := o.elim [] fun b => [.assign k (.bool b)]

/-- The statements before the description. -/
def stmtsBefore (p : Pkg) : List Stmt := [.assign c!"name" (.str p.name)] ++ textStmt c!"version" (p.version.map Version.asStr)

/-- The statements after the description. -/
def stmtsAfter (p : Pkg) : List Stmt :=
  listStmt c!"authors" p.authors ++ listStmt c!"requires" p.requires ++ listStmt c!"build_requires" p.buildRequires ++
  variantStmt p.variants ++ listStmt c!"tools" p.tools ++ functionStmt c!"commands" p.commands ++
  flagStmt c!"relocatable" p.relocatable ++ flagStmt c!"cachable" p.cachable ++ textStmt c!"uuid" p.uuid

/-- The texts that are written as they are, the description left out. -/
def writtenTexts (p : Pkg) : List Str :=
  [p.name] ++ (p.version.map Version.asStr).toList ++ p.authors ++ p.requires ++ p.buildRequires ++ p.variants.flatten ++ p.tools ++
  p.uuid.toList

end Rez.Spec.PyPackage
