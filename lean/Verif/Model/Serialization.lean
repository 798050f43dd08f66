import Verif.Base.Map
import Verif.Model.Context
/-!
# `rez-next-package/src/serialization/*`, `package/serialize.rs`, `package/methods.rs`: package files

The formats JSON, YAML, TOML, bincode with base64 and gzip, and the Python parser, are parameters.  The bytes of a file
are represented by text.
-/
namespace Rez.Serial
open Rez

/-- package/types.rs:8-89 `struct Package`; the maps are association lists, and so is the set. -/
structure Pkg where
  name : Str
  version : Option Version := none
  description : Option Str := none
  authors : List Str := []
  requires : List Str := []
  buildRequires : List Str := []
  privateBuildRequires : List Str := []
  variants : List (List Str) := []
  tools : List Str := []
  commands : Option Str := none
  commandsFunction : Option Str := none
  buildCommand : Option Str := none
  buildSystem : Option Str := none
  preCommands : Option Str := none
  postCommands : Option Str := none
  preTestCommands : Option Str := none
  preBuildCommands : Option Str := none
  tests : List (Str × Str) := []
  requiresRezVersion : Option Str := none
  uuid : Option Str := none
  config : List (Str × Str) := []
  help : Option Str := none
  relocatable : Option Bool := none
  cachable : Option Bool := none
  timestamp : Option Int := none
  revision : Option Str := none
  changelog : Option Str := none
  releaseMessage : Option Str := none
  previousVersion : Option Version := none
  previousRevision : Option Str := none
  vcs : Option Str := none
  formatVersion : Option Int := none
  base : Option Str := none
  hasPlugins : Option Bool := none
  pluginFor : List Str := []
  hashedVariants : Option Bool := none
  preprocess : Option Str := none
  isDev : Option Bool := none
  filepath : Option Str := none
  includes : Option (List Str) := none
deriving DecidableEq

/-- package/methods.rs:10-52 `Package::new`. -/
def Pkg.new (name : Str) : Pkg := { name := name }

/-- package/methods.rs:134-196 `validate`; `alnum` stands for `char::is_alphanumeric`. -/
def Pkg.validate (alnum : Char → Bool) (p : Pkg) : Bool :=
  if p.name.isEmpty then false
  else if !(p.name.all fun c => alnum c || c == '_' || c == '-') then false
  else if p.version.any (fun v => v.asStr.isEmpty) then false
  else if p.requires.any List.isEmpty then false
  else if p.buildRequires.any List.isEmpty then false
  else if p.privateBuildRequires.any List.isEmpty then false
  else if p.variants.any (fun v => v.any List.isEmpty) then false
  else true

/-- `serde_json::Value`; fractions are left out (they are treated like other numbers, or refused). -/
inductive Value where
  | null
  | bool (b : Bool)
  | num (n : Int)
  | str (s : Str)
  | arr (l : List Value)
  | obj (l : List (Str × Value))

/-- Fields by name. -/
abbrev Fields := List (Str × Value)

/-! ## `package/serialize.rs` -/

/-- How `Option<String>` is written. -/
def ofText (o : Option Str) : Value := o.elim .null .str

/-- version.rs:26-34: a version is written as its text. -/
def ofVersion (o : Option Version) : Value := o.elim .null fun v => .str v.asStr

/-- How `Option<bool>` is written. -/
def ofFlag (o : Option Bool) : Value := o.elim .null .bool

/-- How `Option<i64>` and `Option<i32>` are written. -/
def ofNumber (o : Option Int) : Value := o.elim .null .num

/-- How `Vec<String>` is written. -/
def ofTexts (l : List Str) : Value := .arr (l.map .str)

/-- package/serialize.rs:11-58 `serialize`; a map is written in the order of the list. -/
def serialize (p : Pkg) : Fields :=
  [(c!"name", .str p.name), (c!"version", ofVersion p.version), (c!"description", ofText p.description),
   (c!"authors", ofTexts p.authors), (c!"requires", ofTexts p.requires), (c!"build_requires", ofTexts p.buildRequires),
   (c!"private_build_requires", ofTexts p.privateBuildRequires), (c!"variants", .arr (p.variants.map ofTexts)),
   (c!"tools", ofTexts p.tools), (c!"commands", ofText p.commands), (c!"build_command", ofText p.buildCommand),
   (c!"build_system", ofText p.buildSystem), (c!"pre_commands", ofText p.preCommands),
   (c!"post_commands", ofText p.postCommands), (c!"pre_test_commands", ofText p.preTestCommands),
   (c!"pre_build_commands", ofText p.preBuildCommands), (c!"tests", .obj (p.tests.map fun t => (t.1, .str t.2))),
   (c!"requires_rez_version", ofText p.requiresRezVersion), (c!"uuid", ofText p.uuid), (c!"help", ofText p.help),
   (c!"relocatable", ofFlag p.relocatable), (c!"cachable", ofFlag p.cachable), (c!"timestamp", ofNumber p.timestamp),
   (c!"revision", ofText p.revision), (c!"changelog", ofText p.changelog), (c!"release_message", ofText p.releaseMessage),
   (c!"previous_version", ofVersion p.previousVersion), (c!"previous_revision", ofText p.previousRevision),
   (c!"vcs", ofText p.vcs), (c!"format_version", ofNumber p.formatVersion), (c!"base", ofText p.base),
   (c!"has_plugins", ofFlag p.hasPlugins), (c!"plugin_for", ofTexts p.pluginFor),
   (c!"hashed_variants", ofFlag p.hashedVariants), (c!"preprocess", ofText p.preprocess)]

/-- `String::deserialize`. -/
def text : Value → Option Str
  | .str s => some s
  | _ => none

/-- `bool::deserialize`. -/
def flag : Value → Option Bool
  | .bool b => some b
  | _ => none

/-- `i64::deserialize` (with 63) and `i32::deserialize` (with 31). -/
def number (bits : Nat) : Value → Option Int
  | .num n => if -(2 ^ bits : Int) ≤ n ∧ n < (2 ^ bits : Int) then some n else none
  | _ => none

/-- version.rs:42-50 `Version::deserialize`. -/
def versionText : Value → Option Version
  | .str s => Version.parse s
  | _ => none

/-- `Vec<T>::deserialize`. -/
def array {α : Type} (f : Value → Option α) : Value → Option (List α)
  | .arr l => l.mapM f
  | _ => none

/-- `Option<T>::deserialize`. -/
def optional {α : Type} (f : Value → Option α) : Value → Option (Option α)
  | .null => some none
  | v => (f v).map some

/-- A text with its key. -/
def entry (e : Str × Value) : Option (Str × Str) := (text e.2).map fun s => (e.1, s)

/-- `HashMap<String, String>::deserialize`. -/
def table : Value → Option (List (Str × Str))
  | .obj l => l.mapM entry
  | _ => none

/-- A field that may be missing. -/
def field {α : Type} (m : Fields) (k : Str) (f : Value → Option α) (dflt : α) : Option α :=
  match mget m k with
  | none => some dflt
  | some v => f v

/-- package/serialize.rs:574-611 `FIELDS`. -/
def known : List Str :=
  [c!"name", c!"version", c!"description", c!"authors", c!"requires", c!"build_requires", c!"private_build_requires", c!"variants",
   c!"tools", c!"commands", c!"build_command", c!"build_system", c!"pre_commands", c!"post_commands", c!"pre_test_commands",
   c!"pre_build_commands", c!"tests", c!"requires_rez_version", c!"uuid", c!"help", c!"relocatable", c!"cachable", c!"timestamp",
   c!"revision", c!"changelog", c!"release_message", c!"previous_version", c!"previous_revision", c!"vcs", c!"format_version",
   c!"base", c!"has_plugins", c!"plugin_for", c!"hashed_variants", c!"preprocess", c!"is_dev_package"]

/-- package/serialize.rs:286-571 `visit_map`: unknown and repeated fields are errors. -/
def fromMap (m : Fields) : Option Pkg :=
  if !((mkeys m).all fun k => known.contains k) then none
  else if ¬ (mkeys m).Nodup then none
  else do
    let name ← (mget m c!"name").bind text
    let version ← field m c!"version" (optional versionText) none
    let description ← field m c!"description" (optional text) none
    let authors ← field m c!"authors" (array text) []
    let requires ← field m c!"requires" (array text) []
    let buildRequires ← field m c!"build_requires" (array text) []
    let privateBuildRequires ← field m c!"private_build_requires" (array text) []
    let variants ← field m c!"variants" (array (array text)) []
    let tools ← field m c!"tools" (array text) []
    let commands ← field m c!"commands" (optional text) none
    let buildCommand ← field m c!"build_command" (optional text) none
    let buildSystem ← field m c!"build_system" (optional text) none
    let preCommands ← field m c!"pre_commands" (optional text) none
    let postCommands ← field m c!"post_commands" (optional text) none
    let preTestCommands ← field m c!"pre_test_commands" (optional text) none
    let preBuildCommands ← field m c!"pre_build_commands" (optional text) none
    let tests ← field m c!"tests" table []
    let requiresRezVersion ← field m c!"requires_rez_version" (optional text) none
    let uuid ← field m c!"uuid" (optional text) none
    let help ← field m c!"help" (optional text) none
    let relocatable ← field m c!"relocatable" (optional flag) none
    let cachable ← field m c!"cachable" (optional flag) none
    let timestamp ← field m c!"timestamp" (optional (number 63)) none
    let revision ← field m c!"revision" (optional text) none
    let changelog ← field m c!"changelog" (optional text) none
    let releaseMessage ← field m c!"release_message" (optional text) none
    let previousVersion ← field m c!"previous_version" (optional versionText) none
    let previousRevision ← field m c!"previous_revision" (optional text) none
    let vcs ← field m c!"vcs" (optional text) none
    let formatVersion ← field m c!"format_version" (optional (number 31)) none
    let base ← field m c!"base" (optional text) none
    let hasPlugins ← field m c!"has_plugins" (optional flag) none
    let pluginFor ← field m c!"plugin_for" (array text) []
    let hashedVariants ← field m c!"hashed_variants" (optional flag) none
    let preprocess ← field m c!"preprocess" (optional text) none
    let isDev ← field m c!"is_dev_package" (optional flag) none
    return {
      name, version, description, authors, requires, buildRequires, privateBuildRequires, variants, tools, commands,
      buildCommand, buildSystem, preCommands, postCommands, preTestCommands, preBuildCommands, tests, requiresRezVersion,
      uuid, help, relocatable, cachable, timestamp, revision, changelog, releaseMessage, previousVersion, previousRevision,
      vcs, formatVersion, base, hasPlugins, pluginFor, hashedVariants, preprocess, isDev }

/-- package/serialize.rs:113-284 `visit_seq`: the 36 fields in the order of `FIELDS`, all of them.  (That this is reading
the fields by these names is a simplification: a short sequence is an error, and so is a wrong value.) -/
def fromSeq (l : List Value) : Option Pkg :=
  if l.length < known.length then none else fromMap (known.zip l)

/-! ## `serialization/types.rs` -/

/-- types.rs:11-29 `enum PackageFormat`. -/
inductive Format where
  | yaml | json | python | yamlGz | jsonGz | binary | toml | xml
deriving DecidableEq

/-- types.rs:83-103 `from_extension`. -/
def formatOf (path : Str) : Option Format :=
  if c!".yaml.gz".isSuffixOf path || c!".yml.gz".isSuffixOf path then some .yamlGz
  else if c!".json.gz".isSuffixOf path then some .jsonGz
  else
    match Context.extension path with
    | none => none
    | some e =>
      if e = c!"yaml" ∨ e = c!"yml" then some .yaml
      else if e = c!"json" then some .json
      else if e = c!"py" then some .python
      else if e = c!"bin" then some .binary
      else if e = c!"toml" then some .toml
      else if e = c!"xml" then some .xml
      else none

/-- types.rs:106-117 `default_filename`. -/
def defaultName : Format → Str
  | .yaml => c!"package.yaml"
  | .json => c!"package.json"
  | .python => c!"package.py"
  | .yamlGz => c!"package.yaml.gz"
  | .jsonGz => c!"package.json.gz"
  | .binary => c!"package.bin"
  | .toml => c!"package.toml"
  | .xml => c!"package.xml"

/-- types.rs:120-122 `supports_compression`. -/
def Format.compressed : Format → Bool
  | .yamlGz | .jsonGz => true
  | _ => false

/-- types.rs:33-50 `struct SerializationOptions`, without the fields that nothing reads. -/
structure Options where
  pretty : Bool
  metadata : Bool
  timestamps : Bool
  level : Nat
  includeOnly : Option (List Str)
  exclude : Option (List Str)

/-- types.rs:147-158 `new`, the default. -/
def Options.new : Options := ⟨true, true, true, 6, none, none⟩

/-- types.rs:161-172 `minimal`. -/
def Options.minimal : Options := ⟨false, false, false, 1, none, none⟩

/-- types.rs:175-186 `compact`. -/
def Options.compact : Options := ⟨false, true, false, 9, none, some [c!"description", c!"help"]⟩

/-- The formats of others: writing and reading.  `readYaml` includes `yaml_to_json_value` (save.rs:425-461); `yaml` with
`true` is followed by the indentation of save.rs:236-244. -/
structure Codecs where
  json : Bool → Value → Str
  readJson : Str → Option Value
  yaml : Bool → Value → Str
  readYaml : Str → Option Value
  toml : Fields → Option Str
  readToml : Str → Option Fields
  bincode : List Value → Str
  readBincode : Str → Option (List Value)
  gzip : Nat → Str → Str
  gunzip : Str → Option Str
  python : Str → Option Pkg

/-! ## `serialization/load.rs` -/

/-- load.rs:142-210: the texts of an array, if it is one; what is not a text is left out. -/
def textsOf (m : Fields) (k : Str) : List Str :=
  match mget m k with
  | some (.arr l) => l.filterMap text
  | _ => []

/-- load.rs:185-201: an array in an array. -/
def variantOf : Value → Option (List Str)
  | .arr l => some (l.filterMap text)
  | _ => none

/-- load.rs:185-201: the variants. -/
def variantsOf (m : Fields) : List (List Str) :=
  match mget m c!"variants" with
  | some (.arr l) => l.filterMap variantOf
  | _ => []

/-- load.rs:127-134: the version, if it is a text. -/
def versionOf (m : Fields) : Option (Option Version) :=
  match mget m c!"version" with
  | some (.str s) => (Version.parse s).map some
  | _ => some none

/-- load.rs:114-216 `load_from_json_data`. -/
def fromData (alnum : Char → Bool) (m : Fields) : Option Pkg := do
  let name ← (mget m c!"name").bind text
  let version ← versionOf m
  let p : Pkg :=
    { Pkg.new name with
      version := version
      description := (mget m c!"description").bind text
      authors := textsOf m c!"authors"
      requires := textsOf m c!"requires"
      buildRequires := textsOf m c!"build_requires"
      privateBuildRequires := textsOf m c!"private_build_requires"
      variants := variantsOf m
      tools := textsOf m c!"tools" }
  if p.validate alnum then some p else none

/-- A document must be an object; of repeated keys the last counts. -/
def fields : Value → Option Fields
  | .obj l => some (l.foldl (fun m e => mset m e.1 e.2) [])
  | _ => none

/-- load.rs:239 `str::find`; the index counts characters (the texts looked for are ASCII, so that slicing by bytes is
slicing by characters). -/
def indexOf (pat s : Str) : Option Nat := (splitOnce pat s).map fun x => x.1.length

/-- `&content[i..j]`, which panics if `j < i`. -/
def slice (s : Str) (i j : Nat) : Outcome Str := if i ≤ j then .ok ((s.drop i).take (j - i)) else .panic

/-- load.rs:249-256: the version of an XML text. -/
def xmlVersion (s : Str) : Outcome (Option Version) :=
  match indexOf c!"<version>" s, indexOf c!"</version>" s with
  | some i, some j =>
    match slice s (i + 9) j with
    | .ok t => .ok (Version.parse t)
    | .err => .err
    | .panic => .panic
  | _, _ => .ok none

/-- load.rs:258-264: the description of an XML text. -/
def xmlDescription (s : Str) : Outcome (Option Str) :=
  match indexOf c!"<description>" s, indexOf c!"</description>" s with
  | some i, some j =>
    match slice s (i + 13) j with
    | .ok t => .ok (some t)
    | .err => .err
    | .panic => .panic
  | _, _ => .ok none

/-- load.rs:237-267 `load_from_xml`. -/
def fromXml (s : Str) : Outcome Pkg :=
  match indexOf c!"<name>" s, indexOf c!"</name>" s with
  | some i, some j =>
    match slice s (i + 6) j, xmlVersion s, xmlDescription s with
    | .ok name, .ok version, .ok description => .ok { Pkg.new name with version := version, description := description }
    | .panic, _, _ | _, .panic, _ | _, _, .panic => .panic
    | _, _, _ => .err
  | _, _ => .err

/-- A `Result` that cannot panic. -/
def result {α : Type} : Option α → Outcome α
  | some a => .ok a
  | none => .err

/-- load.rs:66-75 `load_from_string`. -/
def loadText (c : Codecs) (alnum : Char → Bool) (s : Str) : Format → Outcome Pkg
  | .yaml | .yamlGz => result (((c.readYaml s).bind fields).bind (fromData alnum))
  | .json | .jsonGz => result (((c.readJson s).bind fields).bind (fromData alnum))
  | .python => result (c.python s)
  | .binary => result ((c.readBincode s).bind fromSeq)
  | .toml => result ((c.readToml s).bind fromMap)
  | .xml => fromXml s

/-- The fields of a document, repeated ones included. -/
def document : Value → Option Fields
  | .obj l => some l
  | _ => none

/-- load.rs:16-63 `load_from_file_with_options` and `load_from_file`: the package of a file with this content. -/
def load (c : Codecs) (alnum : Char → Bool) (path content : Str) : Outcome Pkg :=
  match formatOf path with
  | none => .err
  | some f =>
    if f = .binary then result (((c.readJson content).bind document).bind fromMap)
    else if f.compressed then
      match c.gunzip content with
      | none => .err
      | some s => loadText c alnum s f
    else loadText c alnum content f

/-! ## `serialization/save.rs` -/

/-- save.rs:156-164: one excluded field. -/
def excludeField (p : Pkg) (f : Str) : Pkg :=
  if f = c!"description" then { p with description := none }
  else if f = c!"help" then { p with help := none }
  else if f = c!"authors" then { p with authors := [] }
  else if f = c!"tools" then { p with tools := [] }
  else p

/-- save.rs:171-183: one included field. -/
def includeField (p q : Pkg) (f : Str) : Pkg :=
  if f = c!"version" then { q with version := p.version }
  else if f = c!"description" then { q with description := p.description }
  else if f = c!"authors" then { q with authors := p.authors }
  else if f = c!"requires" then { q with requires := p.requires }
  else if f = c!"build_requires" then { q with buildRequires := p.buildRequires }
  else if f = c!"variants" then { q with variants := p.variants }
  else if f = c!"tools" then { q with tools := p.tools }
  else q

/-- save.rs:149-190 `apply_field_filters`, and 112-117 where it is not called if there is nothing to do. -/
def filterFields (o : Options) (p : Pkg) : Pkg :=
  let p := (o.exclude.getD []).foldl excludeField p
  match o.includeOnly with
  | some fs => fs.foldl (includeField p) (Pkg.new p.name)
  | none => p

/-- save.rs:280-285: a list with one text on each line. -/
def pyLines (field : Str) (l : List Str) : Str :=
  if l.isEmpty then []
  else field ++ c!" = [\n" ++ l.flatMap (fun s => c!"    \"" ++ s ++ c!"\",\n") ++ c!"]\n"

/-- save.rs:305-315: a variant. -/
def pyVariant (v : List Str) : Str := c!"    [" ++ joinWith c!", " (v.map fun s => c!"\"" ++ s ++ c!"\"") ++ c!"],\n"

/-- save.rs:259-329 `save_to_python_with_options`; `now` is the time as text. -/
def toPython (now : Str) (o : Options) (p : Pkg) : Str :=
  (if o.metadata && o.timestamps then c!"# Generated by rez-next serializer at " ++ now ++ c!"\n# Do not edit manually\n\n" else []) ++
  c!"name = \"" ++ p.name ++ c!"\"\n" ++
  (p.version.elim [] fun v => c!"version = \"" ++ v.asStr ++ c!"\"\n") ++
  (p.description.elim [] fun d => c!"description = \"" ++ d ++ c!"\"\n") ++
  pyLines c!"authors" p.authors ++ pyLines c!"requires" p.requires ++ pyLines c!"build_requires" p.buildRequires ++
  (if p.variants.isEmpty then [] else c!"variants = [\n" ++ p.variants.flatMap pyVariant ++ c!"]\n") ++
  pyLines c!"tools" p.tools

/-- save.rs:353-392 `save_to_xml`. -/
def toXml (o : Options) (p : Pkg) : Str :=
  (if o.pretty then c!"<?xml version=\"1.0\" encoding=\"UTF-8\"?>\n" else []) ++ c!"<package>\n" ++
  c!"  <name>" ++ p.name ++ c!"</name>\n" ++
  (p.version.elim [] fun v => c!"  <version>" ++ v.asStr ++ c!"</version>\n") ++
  (p.description.elim [] fun d => c!"  <description>" ++ d ++ c!"</description>\n") ++
  (if p.authors.isEmpty then []
   else c!"  <authors>\n" ++ p.authors.flatMap (fun a => c!"    <author>" ++ a ++ c!"</author>\n") ++ c!"  </authors>\n") ++
  (if p.requires.isEmpty then []
   else c!"  <requires>\n" ++ p.requires.flatMap (fun r => c!"    <requirement>" ++ r ++ c!"</requirement>\n") ++ c!"  </requires>\n") ++
  c!"</package>\n"

/-- types.rs:54-78: the document with metadata; `meta` are the metadata. -/
def container (metadata : Value) (p : Pkg) : Value :=
  .obj [(c!"package", .obj (serialize p)), (c!"metadata", metadata), (c!"schema_version", .str c!"1.0")]

/-- What a document is made of: the package with or without metadata. -/
def documentOf (metadata : Value) (o : Options) (p : Pkg) : Value :=
  if o.metadata then container metadata p else .obj (serialize p)

/-- save.rs:107-146 `save_container_to_string`; YAML with metadata is never indented (194-201). -/
def saveText (c : Codecs) (metadata : Value) (now : Str) (o : Options) (p : Pkg) : Format → Option Str
  | .yaml | .yamlGz => some (c.yaml (o.pretty && !o.metadata) (documentOf metadata o (filterFields o p)))
  | .json | .jsonGz => some (c.json o.pretty (documentOf metadata o (filterFields o p)))
  | .python => some (toPython now o (filterFields o p))
  | .binary => some (c.bincode ((serialize (filterFields o p)).map Prod.snd))
  | .toml => c.toml (serialize (filterFields o p))
  | .xml => some (toXml o (filterFields o p))

/-- save.rs:78-90 `save_to_string`. -/
def saveString (c : Codecs) (now : Str) (p : Pkg) : Format → Option Str
  | .yaml | .yamlGz => some (c.yaml false (.obj (serialize p)))
  | .json | .jsonGz => some (c.json true (.obj (serialize p)))
  | .python => some (toPython now Options.minimal p)
  | .binary => some (c.bincode ((serialize p).map Prod.snd))
  | .toml => c.toml (serialize p)
  | .xml => some (toXml Options.new p)

/-- save.rs:18-66 `save_to_file_with_options`: the content of the file; `none` options are the default. -/
def save (c : Codecs) (metadata : Value) (now : Str) (o : Option Options) (p : Pkg) (f : Format) : Option Str :=
  let o := o.getD Options.new
  if f = .binary then some (c.json false (.obj (serialize p)))
  else
    match saveText c metadata now o p f with
    | none => none
    | some s => some (if f.compressed then c.gzip o.level s else s)

/-! ## `package/methods.rs`: `to_package_py` -/

/-- methods.rs:292 `replace("\"", "\\\"")`. -/
def escapeQuotes (s : Str) : Str := s.flatMap fun c => if c = '"' then ['\\', '"'] else [c]

/-- A text in quotes. -/
def quoted (s : Str) : Str := c!"\"" ++ s ++ c!"\""

/-- `str::lines`: a `\r` before a `\n` is part of the line break. -/
def linesOf (s : Str) : List Str :=
  let parts := splitChar '\n' s
  (parts.dropLast.map fun l => if l.getLast? = some '\r' then l.dropLast else l) ++ parts.getLast?.toList.filter fun l => !l.isEmpty

/-- methods.rs:310-318: a list with one text on each line. -/
def pyBlock (field : Str) (l : List Str) : List Str :=
  if l.isEmpty then [] else [field ++ c!" = [\n" ++ joinWith c!",\n" (l.map fun r => c!"    " ++ quoted r) ++ c!"\n]"]

/-- methods.rs:382-391: a function. -/
def pyFunction (name : Str) : Option Str → List Str
  | none => []
  | some body => (c!"\ndef " ++ name ++ c!"():") :: (linesOf body).map fun l => if (trim l).isEmpty then [] else c!"    " ++ l

/-- methods.rs:376: `Display` of a flag. -/
def flagText (b : Bool) : Str := if b then c!"true" else c!"false"

/-- methods.rs:278-428 `to_package_py`; the lines that are joined. -/
def pyParts (p : Pkg) : List Str :=
  [c!"name = " ++ quoted p.name] ++
  (p.version.elim [] fun v => [c!"version = " ++ quoted v.asStr]) ++
  (p.description.elim [] fun d => [c!"description = " ++ quoted (escapeQuotes d)]) ++
  (if p.authors.isEmpty then [] else [c!"authors = [" ++ joinWith c!", " (p.authors.map fun a => quoted (escapeQuotes a)) ++ c!"]"]) ++
  pyBlock c!"requires" p.requires ++ pyBlock c!"build_requires" p.buildRequires ++
  pyBlock c!"private_build_requires" p.privateBuildRequires ++
  (if p.variants.isEmpty then []
   else [c!"variants = [\n" ++ joinWith c!",\n" (p.variants.map fun v => c!"    [" ++ joinWith c!", " (v.map quoted) ++ c!"]") ++ c!"\n]"]) ++
  (if p.tools.isEmpty then [] else [c!"tools = [" ++ joinWith c!", " (p.tools.map quoted) ++ c!"]"]) ++
  (p.uuid.elim [] fun u => [c!"uuid = " ++ quoted u]) ++
  (p.relocatable.elim [] fun b => [c!"relocatable = " ++ flagText b]) ++
  (p.cachable.elim [] fun b => [c!"cachable = " ++ flagText b]) ++
  pyFunction c!"commands" p.commands ++ pyFunction c!"pre_commands" p.preCommands ++ pyFunction c!"post_commands" p.postCommands ++
  (if p.tests.isEmpty then []
   else [c!"\ntests = {"] ++ p.tests.flatMap (fun t => [c!"    " ++ quoted t.1 ++ c!": {", c!"        # test definition", c!"    },"]) ++ [c!"}"])

/-- methods.rs:430 `lines.join("\n")`. -/
def toPackagePy (p : Pkg) : Str := joinWith c!"\n" (pyParts p)

end Rez.Serial
