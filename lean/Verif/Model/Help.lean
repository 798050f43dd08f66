import Verif.Model.PackageQuery
import Verif.Model.Serialization
import Verif.Model.Rex
/-!
# Help for packages: `rez-next-package/src/package/help.rs`, `rez-next-python/src/package_help_bindings.rs` and
`src/cli/commands/help.rs`

Parameters: the sort of the standard library, the repositories, the fields of a package that the model of repositories leaves out,
and the two constant texts of `rez pkg-help` without a package.  What is printed before an error, and the wording of errors, is
left out.
-/
namespace Rez.Help
open Rez Rez.Serial Rez.PackageOrder Rez.Repository
open Rez.PackageQuery (World)

/-! ## `PackageHelp` -/

/-- package/help.rs:9-15 `HelpSection`. -/
structure Section where
  name : Str
  uri : Str
deriving DecidableEq

/-- package/help.rs:21-27 `PackageHelp`. -/
structure Found where
  package : Option Pkg
  sections : List Section

/-- package/help.rs:46-53: the comparison, descending, packages without a version last. -/
def byVersion (a b : Pkg) : Ordering :=
  match a.version, b.version with
  | some v1, some v2 => v2.cmp v1
  | some _, none => .lt
  | none, some _ => .gt
  | none, none => .eq

/-- package/help.rs:58-72: the name and the range. -/
def matching (name : Str) (range : Option VersionRange) (p : Pkg) : Bool :=
  if p.name != name then false
  else match range with
    | none => true
    | some r =>
      match p.version with
      | some v => r.contains v
      | none => false

/-- package/help.rs:58-86: the loop over the sorted packages. -/
def firstHelp (name : Str) (range : Option VersionRange) : List Pkg → Found
  | [] => ⟨none, []⟩
  | p :: ps =>
    if !matching name range p then firstHelp name range ps
    else match p.help with
      | some help => ⟨some p, [⟨c!"Help", help⟩]⟩
      | none => firstHelp name range ps

/-- package/help.rs:39-90 `new`; `sort` is `sort_by`. -/
def search (sort : (Pkg → Pkg → Ordering) → List Pkg → Outcome (List Pkg)) (name : Str) (range : Option VersionRange) (ps : List Pkg) :
    Outcome Found :=
  match sort byVersion ps with
  | .ok l => .ok (firstHelp name range l)
  | .err => .err
  | .panic => .panic

/-- package/help.rs:93-95 `success`. -/
def Found.success (f : Found) : Bool := !f.sections.isEmpty

/-- `str::trim_start_matches(pat)`; the number bounds the matches. -/
def dropPrefixes (pat : Str) : Nat → Str → Str
  | 0, s => s
  | n + 1, s => if pat.isPrefixOf s then dropPrefixes pat n (s.drop pat.length) else s

/-- package/help.rs:115-130: one address. -/
def formatUri (base version uri : Str) : Str :=
  let uri := Rex.replaceAll c!"$BASE" base uri
  let uri := Rex.replaceAll c!"$ROOT" base uri
  let uri := Rex.replaceAll c!"$VERSION" version uri
  if (c!"$BROWSER").isPrefixOf uri then trim (dropPrefixes c!"$BROWSER" uri.length uri) else uri

/-- package/help.rs:105-134 `format_uris`. -/
def Found.formatUris (f : Found) : Found :=
  match f.package with
  | none => f
  | some p =>
    { f with sections := f.sections.map fun s =>
        { s with uri := formatUri (p.base.getD []) ((p.version.map Version.asStr).getD []) s.uri } }

/-- package_help_bindings.rs:75-103 `PackageHelp(...)` in Python; a range that cannot be read is an error. -/
def python (sort : (Pkg → Pkg → Ordering) → List Pkg → Outcome (List Pkg)) (name : Str) (range : Option Str) (ps : List Pkg) : Outcome Found :=
  match range with
  | none => search sort name none ps
  | some t =>
    match VersionRange.parse t with
    | some r => search sort name (some r) ps
    | none => .err

/-! ## `rez pkg-help` -/

/-- cli help.rs:12-37 `PkgHelpArgs`. -/
structure Args where
  package : Option Str
  chosen : Nat := 1
  manual : Bool := false
  entries : Bool := false
  paths : List Str := []
  verbose : Bool := false

/-- The machine. -/
structure Machine where
  world : World
  /-- all fields of a package in a repository -/
  full : Package → Pkg
  /-- cli help.rs:74-91: the constant text of `--manual` -/
  manualText : Str
  /-- cli help.rs:98-145: the constant text of the commands, depending on `--verbose` -/
  commandsText : Bool → Str

/-- A line. -/
def line (s : Str) : Str := s ++ c!"\n"

/-- cli help.rs:172-187 `setup_repositories`: also for paths at which there is nothing. -/
def repositories (m : Machine) (a : Args) : List Repo :=
  (if a.paths.isEmpty then [c!"./local_packages"] else a.paths).map fun p => ((m.world.dir p).getD none, State.new)

/-- cli help.rs:244-262: the text about the package. -/
def information (p : Pkg) : Str :=
  line (c!"Package: " ++ p.name) ++ (p.version.elim [] fun v => line (c!"Version: " ++ v.asStr)) ++
  (if p.authors.isEmpty then [] else line (c!"Authors: " ++ joinWith c!", " p.authors)) ++
  (if p.requires.isEmpty then [] else line (c!"Requirements: " ++ joinWith c!", " p.requires)) ++
  (if p.tools.isEmpty then [] else line (c!"Tools: " ++ joinWith c!", " p.tools))

/-- cli help.rs:269-273: how to use it. -/
def usage (p : Pkg) : Str :=
  c!"To use this package in an environment:\n  rez env " ++ p.name ++ c!"\n\nTo view package details:\n  rez view " ++ p.name

/-- cli help.rs:233-281 `extract_help_sections`: names and contents. -/
def sections (p : Pkg) : List (Str × Str) :=
  (p.description.elim [] fun d => [(c!"Description", d)]) ++ [(c!"Package Information", information p), (c!"Usage", usage p)]

/-- cli help.rs:298-301: the numbered names. -/
def numbered : Nat → List (Str × Str) → Str
  | _, [] => []
  | n, s :: l => line (c!"  " ++ decimal n ++ c!": " ++ s.1) ++ numbered (n + 1) l

/-- cli help.rs:284-307 `display_help_entries`. -/
def showEntries (p : Pkg) : Str :=
  line c!"Help found for:" ++ line (c!"  " ++ p.name) ++ (p.version.elim [] fun v => line (c!"  Version: " ++ v.asStr)) ++ line [] ++
  (p.description.elim [] fun d => line c!"Description:" ++ line (c!"  " ++ d) ++ line []) ++
  line c!"Sections:" ++ numbered 1 (sections p) ++ line [] ++
  line (c!"Use 'rez help " ++ p.name ++ c!" <section_number>' to view a specific section.")

/-- cli help.rs:310-337 `display_help_section`; the subtraction saturates. -/
def showSection (p : Pkg) (n : Nat) : Outcome Str :=
  match (sections p)[n - 1]? with
  | none => .err
  | some s => .ok (line (c!"Help for: " ++ p.name) ++ (p.version.elim [] fun v => line (c!"Version: " ++ v.asStr)) ++ line [] ++
      line (c!"Section " ++ decimal n ++ c!": " ++ s.1) ++ line (List.replicate 50 '=') ++ line [] ++ line s.2 ++ line [])

/-- cli help.rs:57-59, 151-153, 207-212: the lines of `--verbose`. -/
def chatter (a : Args) (name : Str) (p : Pkg) : Str :=
  if a.verbose then line c!"📚 Rez Help - Displaying help information..." ++ line (c!"Searching for help in package: " ++ name) ++
    line (c!"Found package: " ++ p.name) ++ (p.version.elim [] fun v => line (c!"Version: " ++ v.asStr))
  else []

/-- cli help.rs:190-230 `find_package_help`: the first package found. -/
def findPackage (m : Machine) (a : Args) (name : Str) : Outcome Pkg :=
  match (managerFind m.world.srt (repositories m a) name).2 with
  | .err => .err
  | .panic => .panic
  | .ok ps =>
    match ps with
    | [] => .err
    | p :: _ => if (sections (m.full p)).isEmpty then .err else .ok (m.full p)

/-- cli help.rs:56-70 `execute`, 73-95 and 148-169: what is printed. -/
def execute (m : Machine) (a : Args) : Outcome Str :=
  match a.package with
  | none =>
    .ok ((if a.verbose then line c!"📚 Rez Help - Displaying help information..." else []) ++
      if a.manual then m.manualText else m.commandsText a.verbose)
  | some name =>
    if a.manual then .ok ((if a.verbose then line c!"📚 Rez Help - Displaying help information..." else []) ++ m.manualText)
    else match findPackage m a name with
      | .err => .err
      | .panic => .panic
      | .ok p =>
        if a.entries then .ok (chatter a name p ++ showEntries p)
        else match showSection p a.chosen with
          | .ok s => .ok (chatter a name p ++ s)
          | .err => .err
          | .panic => .panic

end Rez.Help
