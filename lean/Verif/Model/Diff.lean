import Verif.Model.Repository
import Verif.Model.Requirement
/-!
# `src/cli/commands/diff.rs` and `status.rs`: two packages compared, and what is there

The repositories are those of Model/Repository.lean and keep their memory from one question to the next.  Texts made with
`{:?}` are parameters.  Left out: `--paths` and the configuration, titles and `--verbose`.
-/
namespace Rez.Diff
open Rez Rez.Repository Rez.PackageOrder

/-- What the model of a package leaves out (types.rs `description`, `authors`). -/
structure Fields where
  description : Package → Option Str
  authors : Package → List Str

/-- Texts and orders the code takes from the standard library: `{:?}` of a list of texts, and what a `HashSet` made of a list
holds, in the order of its iteration. -/
structure Library where
  shown : List Str → Str
  set : List Str → List Str
  sets : List (List Str) → List (List Str)

/-- diff.rs:203-215 `parse_package_spec`. -/
def parseSpec (s : Str) : Str × Option Str :=
  match rsplitOnce '-' s with
  | some (n, v) => if v.head?.any isDigit then (n, some v) else (s, none)
  | none => (s, none)

/-- The version of the package is this text. -/
def textIs (v : Str) (p : Package) : Bool := p.version.any fun x => x.repr == v

/-- diff.rs:217-253 `find_package`, given what the repositories answer. -/
def pick (ps : List Package) : Option Str → Option Package
  | some v => ps.find? (textIs v)
  | none => ps.head?

/-- diff.rs:272-274: the package has a version, and it is written in another way. -/
def otherText (p q : Package) : Bool :=
  match q.version, p.version with
  | some v, some w => v.repr != w.repr
  | _, _ => false

/-- diff.rs:255-282 `find_previous_version`, given what the repositories answer. -/
def previous (ps : List Package) (p : Package) : Option Package :=
  if ps.length < 2 then none else ps.find? (otherText p)

/-- A question to the repositories and the choice of an answer. -/
def lookup (srt : Sorting) (repos : List Repo) (name : Str) (choice : List Package → Option Package) :
    List Repo × Outcome Package :=
  match managerFind srt repos name with
  | (repos', .ok ps) =>
    match choice ps with
    | some p => (repos', .ok p)
    | none => (repos', .err)
  | (repos', .err) => (repos', .err)
  | (repos', .panic) => (repos', .panic)

/-- diff.rs:217-253 `find_package` of a text. -/
def lookupSpec (srt : Sorting) (repos : List Repo) (spec : Str) : List Repo × Outcome Package :=
  lookup srt repos (parseSpec spec).1 fun ps => pick ps (parseSpec spec).2

/-- diff.rs:181-201 `find_packages_to_diff`. -/
def packages (srt : Sorting) (repos : List Repo) (first : Str) (second : Option Str) : Outcome (Package × Package) :=
  match lookupSpec srt repos first with
  | (repos', .ok p) =>
    match (match second with
        | some s => (lookupSpec srt repos' s).2
        | none => (lookup srt repos' p.name fun ps => previous ps p).2) with
    | .ok q => .ok (p, q)
    | .err => .err
    | .panic => .panic
  | (_, .err) => .err
  | (_, .panic) => .panic

/-- diff.rs:47-85 `DiffDetails`.  `modified` is always empty (diff.rs:353). -/
structure Details where
  description : Option (Option Str × Option Str)
  authors : Option (List Str × List Str)
  tools : Option (List Str × List Str)
  added : List Str
  removed : List Str
  count : Nat × Nat
  variantsAdded : List (List Str)
  variantsRemoved : List (List Str)

/-- Both values, if they differ. -/
def changed {α : Type} [DecidableEq α] (a b : α) : Option (α × α) := if a = b then none else some (a, b)

/-- diff.rs:285-378 `compare_packages`. -/
def compare (f : Fields) (l : Library) (p q : Package) : Details :=
  { description := changed (f.description p) (f.description q)
    authors := changed (f.authors p) (f.authors q)
    tools := changed p.tools q.tools
    added := (l.set q.requires).filter fun x => !(l.set p.requires).contains x
    removed := (l.set p.requires).filter fun x => !(l.set q.requires).contains x
    count := (p.variants.length, q.variants.length)
    variantsAdded := (l.sets q.variants).filter fun x => !(l.sets p.variants).contains x
    variantsRemoved := (l.sets p.variants).filter fun x => !(l.sets q.variants).contains x }

/-- diff.rs:454-466: was there anything. -/
def Details.any (d : Details) : Bool :=
  d.description.isSome || d.authors.isSome || d.tools.isSome || !d.added.isEmpty || !d.removed.isEmpty ||
  d.count.1 != d.count.2 || !d.variantsAdded.isEmpty || !d.variantsRemoved.isEmpty

/-- diff.rs:397-419: the lines about a value that was changed. -/
def valueLines {α : Type} (title : Str) (text : α → Str) : Option (α × α) → List Str
  | some (a, b) => [title, c!"    - " ++ text a, c!"    + " ++ text b]
  | none => []

/-- diff.rs:381-473 `output_text_diff` without the first two lines, titles and empty lines. -/
def lines (l : Library) (d : Details) : List Str :=
  valueLines c!"  Description:" (fun x => x.getD c!"(none)") d.description ++
  valueLines c!"  Authors:" l.shown d.authors ++ valueLines c!"  Tools:" l.shown d.tools ++
  d.added.map (fun r => c!"  + " ++ r) ++ d.removed.map (fun r => c!"  - " ++ r) ++
  (if d.count.1 != d.count.2 || !d.variantsAdded.isEmpty || !d.variantsRemoved.isEmpty then
    [c!"  Count: " ++ decimal d.count.1 ++ c!" -> " ++ decimal d.count.2] else []) ++
  d.variantsAdded.map (fun v => c!"  + " ++ l.shown v) ++ d.variantsRemoved.map (fun v => c!"  - " ++ l.shown v) ++
  (if d.any then [] else [c!"✅ No differences found between packages"])

/-- diff.rs:476-534 `output_json_diff`: the lines. -/
def jsonLines (l : Library) (nested : List (List Str) → Str) (p q : Package) (d : Details) : List Str :=
  let version (p : Package) : Str := (p.version.map (·.repr)).getD c!"unknown"
  [c!"{", c!"  \"pkg1_name\": \"" ++ p.name ++ c!"\",", c!"  \"pkg1_version\": \"" ++ version p ++ c!"\",",
   c!"  \"pkg2_name\": \"" ++ q.name ++ c!"\",", c!"  \"pkg2_version\": \"" ++ version q ++ c!"\",",
   c!"  \"differences\": {", c!"    \"metadata_changes\": {"] ++
  (match d.description with
   | some (a, b) => [c!"      \"description\": [\"" ++ a.getD c!"null" ++ c!"\", \"" ++ b.getD c!"null" ++ c!"\"],"]
   | none => []) ++
  [c!"    },", c!"    \"requirements_changes\": {", c!"      \"added\": " ++ l.shown d.added ++ c!",",
   c!"      \"removed\": " ++ l.shown d.removed ++ c!",", c!"      \"modified\": []", c!"    },",
   c!"    \"variants_changes\": {",
   c!"      \"count_change\": [" ++ decimal d.count.1 ++ c!", " ++ decimal d.count.2 ++ c!"],",
   c!"      \"added\": " ++ nested d.variantsAdded ++ c!",", c!"      \"removed\": " ++ nested d.variantsRemoved,
   c!"    }", c!"  }", c!"}"]

/-! ## `status.rs` -/

/-- status.rs:143-190 `show_package_status`: the lines without details. -/
def packageStatus (srt : Sorting) (repos : List Repo) (name : Str) : Outcome (List Str) :=
  match (managerFind srt repos name).2 with
  | .ok [] => .ok [c!"Package '" ++ name ++ c!"' not found"]
  | .ok ps => .ok ([c!"Package: " ++ name, c!"Versions found: " ++ decimal ps.length] ++
      ps.mapIdx fun i p => c!"Version " ++ decimal (i + 1) ++ c!": " ++ (p.version.map (·.repr)).getD c!"unknown")
  | .err => .err
  | .panic => .panic

/-- The numbers of status.rs:310-345 `show_general_status`: packages, families and variants. -/
def totals (srt : Sorting) (repos : List Repo) : Outcome (Nat × Nat × Nat) :=
  match (managerFind srt repos []).2 with
  | .ok ps => .ok (ps.length, (ps.map (·.name)).eraseDups.length, (ps.map fun p => max p.variants.length 1).sum)
  | .err => .err
  | .panic => .panic

/-- status.rs:391-432 `analyze_repository_status`: the number of packages told of a directory that can be read, given its
entries and which of them are directories.  The number of families told is the same. -/
def countDirs (entries : List (Str × Bool)) : Nat := (entries.filter (·.2)).length

end Rez.Diff
