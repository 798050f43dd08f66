import Verif.Model.Serialization
import Verif.Model.Requirement
/-!
# Packages and requirements as Python objects: `rez-next-python/src/package_bindings.rs`

A value of Python is a `Value`: a list or a tuple is an array, and a dictionary an object.  Left out: getters and setters, which pass
values on; loading and saving (see `Model/Serialization.lean`); which exception an error is.
-/
namespace Rez.PyPackage
open Rez Rez.Serial

/-- package_bindings.rs:22-27 `__str__`. -/
def «show» (p : Pkg) : Str :=
  match p.version with
  | some v => p.name ++ c!"-" ++ v.asStr
  | none => p.name

/-- package_bindings.rs:33-37 `__eq__`. -/
def eq (p q : Pkg) : Bool := p.name == q.name && p.version.map Version.asStr == q.version.map Version.asStr

/-- package_bindings.rs:39-48 `__hash__`: the texts that are hashed, one after the other. -/
def hash {H : Type} (h : List Str → H) (p : Pkg) : H := h (p.name :: (p.version.map Version.asStr).toList)

/-- An `i64` (with 63) or an `i32` (with 31) from Python, where truth values are numbers. -/
def integer (bits : Nat) : Value → Option Int
  | .bool b => some (if b then 1 else 0)
  | v => number bits v

/-- package_bindings.rs:282-436 `from_dict`; `none` is an error. -/
def fromDict (d : Fields) : Option Pkg := do
  let name ← (mget d c!"name").bind text
  let version ← field d c!"version" (fun v => (versionText v).map some) none
  let description ← field d c!"description" (fun v => (text v).map some) none
  let authors ← field d c!"authors" (array text) []
  let requires ← field d c!"requires" (array text) []
  let buildRequires ← field d c!"build_requires" (array text) []
  let privateBuildRequires ← field d c!"private_build_requires" (array text) []
  let variants ← field d c!"variants" (array (array text)) []
  let tools ← field d c!"tools" (array text) []
  let commands ← field d c!"commands" (fun v => (text v).map some) none
  let uuid ← field d c!"uuid" (fun v => (text v).map some) none
  let timestamp ← field d c!"timestamp" (fun v => (integer 63 v).map some) none
  let cachable ← field d c!"cachable" (fun v => (flag v).map some) none
  let relocatable ← field d c!"relocatable" (fun v => (flag v).map some) none
  let formatVersion ← field d c!"format_version" (fun v => (integer 31 v).map some) none
  let vcs ← field d c!"vcs" (fun v => (text v).map some) none
  let changelog ← field d c!"changelog" (fun v => (text v).map some) none
  let releaseMessage ← field d c!"release_message" (fun v => (text v).map some) none
  let revision ← field d c!"revision" (fun v => (text v).map some) none
  let hashedVariants ← field d c!"hashed_variants" (fun v => (flag v).map some) none
  let preprocess ← field d c!"preprocess" (fun v => (text v).map some) none
  let isDev ← field d c!"is_dev_package" (fun v => (flag v).map some) none
  let pluginFor ← field d c!"plugin_for" (array text) []
  let buildCommand ← field d c!"build_command" (fun v => (text v).map some) none
  let buildSystem ← field d c!"build_system" (fun v => (text v).map some) none
  let preCommands ← field d c!"pre_commands" (fun v => (text v).map some) none
  let postCommands ← field d c!"post_commands" (fun v => (text v).map some) none
  let preTestCommands ← field d c!"pre_test_commands" (fun v => (text v).map some) none
  let preBuildCommands ← field d c!"pre_build_commands" (fun v => (text v).map some) none
  let requiresRezVersion ← field d c!"requires_rez_version" (fun v => (text v).map some) none
  let tests ← field d c!"tests" table []
  let config ← field d c!"config" table []
  return {
    name, version, description, authors, requires, buildRequires, privateBuildRequires, variants, tools, commands, uuid, timestamp,
    cachable, relocatable, formatVersion, vcs, changelog, releaseMessage, revision, hashedVariants, preprocess, isDev, pluginFor,
    buildCommand, buildSystem, preCommands, postCommands, preTestCommands, preBuildCommands, requiresRezVersion, tests, config }

/-- A list, unless it is empty. -/
def unlessEmpty {α : Type} (f : List α → Value) (l : List α) : Option Value := if l.isEmpty then none else some (f l)

/-- package_bindings.rs:485-540 `to_dict`: what is set, if it is. -/
def entries (p : Pkg) : List (Str × Option Value) :=
  [(c!"name", some (.str p.name)), (c!"version", p.version.map fun v => .str v.asStr), (c!"description", p.description.map .str),
   (c!"authors", unlessEmpty ofTexts p.authors), (c!"requires", unlessEmpty ofTexts p.requires),
   (c!"build_requires", unlessEmpty ofTexts p.buildRequires),
   (c!"private_build_requires", unlessEmpty ofTexts p.privateBuildRequires),
   (c!"variants", unlessEmpty (fun l => .arr (l.map ofTexts)) p.variants), (c!"tools", unlessEmpty ofTexts p.tools),
   (c!"commands", p.commands.map .str), (c!"uuid", p.uuid.map .str), (c!"timestamp", p.timestamp.map .num),
   (c!"cachable", p.cachable.map .bool), (c!"relocatable", p.relocatable.map .bool), (c!"format_version", p.formatVersion.map .num)]

/-- package_bindings.rs:485-540 `to_dict`. -/
def toDict (p : Pkg) : Fields := (entries p).filterMap fun e => e.2.map fun v => (e.1, v)

/-- package_bindings.rs:569-612, 632-644: a list of texts, after an empty line. -/
def listLines (name : Str) : List Str → List Str
  | [] => []
  | [x] => [[], name ++ c!" = [" ++ quoted x ++ c!"]"]
  | l => [[], name ++ c!" = ["] ++ l.map (fun x => c!"    " ++ quoted x ++ c!",") ++ [c!"]"]

/-- package_bindings.rs:618-627: a variant. -/
def variantLines : List Str → List Str
  | [x] => [c!"    [" ++ quoted x ++ c!"],"]
  | v => [c!"    ["] ++ v.map (fun x => c!"        " ++ quoted x ++ c!",") ++ [c!"    ],"]

/-- package_bindings.rs:555-567: the description; more than 40 bytes go between lines of their own. -/
def descriptionLines : Option Str → List Str
  | none => []
  | some d =>
    if byteLen d > 40 then [[], c!"description = \"\"\"", d, c!"\"\"\""] else [c!"description = " ++ quoted (escapeQuotes d)]

/-- package_bindings.rs:660-672: a flag, after an empty line. -/
def flagLines (name : Str) : Option Bool → List Str
  | none => []
  | some b => [[], name ++ c!" = " ++ if b then c!"True" else c!"False"]

/-- package_bindings.rs:547-553: the lines before the description. -/
def linesBefore (p : Pkg) : List Str :=
  [c!"name = " ++ quoted p.name] ++ p.version.elim [] fun v => [c!"version = " ++ quoted v.asStr]

/-- package_bindings.rs:569-678: the lines after the description. -/
def linesAfter (p : Pkg) : List Str :=
  listLines c!"authors" p.authors ++ listLines c!"requires" p.requires ++ listLines c!"build_requires" p.buildRequires ++
  (if p.variants.isEmpty then [] else [[], c!"variants = ["] ++ p.variants.flatMap variantLines ++ [c!"]"]) ++
  listLines c!"tools" p.tools ++
  (p.commands.elim [] fun s =>
    [[], c!"def commands():"] ++ (linesOf s).map fun l => if (trim l).isEmpty then [] else c!"    " ++ l) ++
  flagLines c!"relocatable" p.relocatable ++ flagLines c!"cachable" p.cachable ++
  (p.uuid.elim [] fun u => [[], c!"uuid = " ++ quoted u])

/-- package_bindings.rs:544-680 `to_package_py`. -/
def toPy (p : Pkg) : Str := joinWith c!"\n" (linesBefore p ++ descriptionLines p.description ++ linesAfter p)

/-! ## Requirements -/

/-- package_bindings.rs:785-790 `__eq__`. -/
def reqEq (r s : PackageRequirement) : Bool :=
  r.name == s.name && r.spec == s.spec && r.conflict == s.conflict && r.weak == s.weak

/-- package_bindings.rs:792-803 `__hash__`: the texts and the flags that are hashed. -/
def reqHash {H : Type} (h : List Str → Bool → Bool → H) (r : PackageRequirement) : H := h (r.name :: r.spec.toList) r.conflict r.weak

/-- package_bindings.rs:841-848 `conflict_requirement`. -/
def conflictText (r : PackageRequirement) : Str := if r.conflict then r.display else c!"!" ++ r.display

end Rez.PyPackage
