import Verif.Model.Commands
import Verif.Model.PackageQuery
import Verif.Model.Serialization
/-!
# `rez view`: `src/cli/commands/view.rs`

Parameters: the environment variables, the contexts in files, what is found at the path given, the repositories, and the fields of a
package that the model of repositories leaves out.  Left out: the wording of error messages.
-/
namespace Rez.View
open Rez Rez.PackageOrder Rez.Serial Rez.Commands
open Rez.PackageQuery (World familyOf)

/-- view.rs:13-33 `ViewArgs`. -/
structure Args where
  package : Str
  python : Bool := false
  all : Bool := false
  brief : Bool := false
  current : Bool := false

/-- What there is at the path given: view.rs:96-99, 108-121. -/
inductive Here where
  | noDirectory
  | noPackageFile
  | unreadable
  | package (p : Pkg)

/-- The machine. -/
structure Machine where
  /-- `REZ_RXT_FILE` -/
  rxtFile : Option Str
  /-- `REZ_CONTEXT_FILE` -/
  contextFile : Option Str
  /-- `ContextSerializer::load_from_file` of a file that exists: the resolved packages -/
  contextAt : Str → Option (Option (List Pkg))
  here : Str → Here
  world : World
  /-- all fields of a package in a repository -/
  full : Package → Pkg

/-- cli/utils.rs:49-64 `validate_package_name`. -/
def validName (name : Str) : Bool := !name.isEmpty && !name.contains ' '

/-- A line. -/
def line (s : Str) : Str := s ++ c!"\n"

/-- view.rs:210-216, 301-307: the comments. -/
def header (a : Args) (p : Pkg) : Str :=
  if a.brief then []
  else line (c!"# Package: " ++ p.name) ++ (p.version.elim [] fun v => line (c!"# Version: " ++ v.asStr)) ++ line []

/-- view.rs:224-226 and the like. -/
def yamlText (key : Str) (o : Option Str) : Str := o.elim [] fun s => line (key ++ c!": " ++ s)

/-- view.rs:228-247. -/
def yamlList (key : Str) (l : List Str) : Str :=
  if l.isEmpty then [] else line (key ++ c!":") ++ l.flatMap fun x => line (c!"  - " ++ x)

/-- view.rs:249-261. -/
def yamlVariants (l : List (List Str)) : Str :=
  if l.isEmpty then [] else line c!"variants:" ++ l.flatMap fun v => line (c!"  - [" ++ joinWith c!", " v ++ c!"]")

/-- view.rs:275-280. -/
def yamlCommands (o : Option Str) : Str :=
  o.elim [] fun s => line c!"commands: |" ++ (linesOf s).flatMap fun l => line (c!"  " ++ l)

/-- view.rs:290-295; the tests are in the order in which the map is iterated. -/
def yamlTests (l : List (Str × Str)) : Str :=
  if l.isEmpty then [] else line c!"tests:" ++ l.flatMap fun t => line (c!"  " ++ t.1 ++ c!": " ++ t.2)

/-- view.rs:209-298 `display_package_yaml`. -/
def yaml (a : Args) (p : Pkg) : Str :=
  header a p ++ line (c!"name: " ++ p.name) ++ yamlText c!"version" (p.version.map Version.asStr) ++
  yamlText c!"description" p.description ++ yamlList c!"authors" p.authors ++ yamlList c!"requires" p.requires ++
  yamlList c!"tools" p.tools ++ yamlVariants p.variants ++ yamlText c!"build_command" p.buildCommand ++
  yamlText c!"build_system" p.buildSystem ++ yamlText c!"uuid" p.uuid ++ yamlCommands p.commands ++
  if a.all then yamlText c!"pre_commands" p.preCommands ++ yamlText c!"post_commands" p.postCommands ++ yamlTests p.tests else []

/-- view.rs:315-317 and the like; quotes are not escaped. -/
def pyText (key : Str) (o : Option Str) : Str := o.elim [] fun s => line (key ++ c!" = " ++ quoted s)

/-- view.rs:319-350. -/
def pyList (key : Str) (l : List Str) : Str :=
  if l.isEmpty then [] else line (key ++ c!" = [" ++ joinWith c!", " (l.map quoted) ++ c!"]")

/-- view.rs:352-365. -/
def pyVariants (l : List (List Str)) : Str :=
  if l.isEmpty then []
  else line c!"variants = [" ++ (l.flatMap fun v => line (c!"    [" ++ joinWith c!", " (v.map quoted) ++ c!"],")) ++ line c!"]"

/-- view.rs:387-393. -/
def pyTests (l : List (Str × Str)) : Str :=
  if l.isEmpty then []
  else line c!"tests = {" ++ (l.flatMap fun t => line (c!"    " ++ quoted t.1 ++ c!": " ++ quoted t.2 ++ c!",")) ++ line c!"}"

/-- view.rs:300-397 `display_package_python`. -/
def python (a : Args) (p : Pkg) : Str :=
  header a p ++ line (c!"name = " ++ quoted p.name) ++ pyText c!"version" (p.version.map Version.asStr) ++
  pyText c!"description" p.description ++ pyList c!"authors" p.authors ++ pyList c!"requires" p.requires ++
  pyList c!"tools" p.tools ++ pyVariants p.variants ++ pyText c!"build_command" p.buildCommand ++
  pyText c!"build_system" p.buildSystem ++ pyText c!"uuid" p.uuid ++
  if a.all then pyText c!"pre_commands" p.preCommands ++ pyText c!"post_commands" p.postCommands ++ pyTests p.tests else []

/-- view.rs:201-206 `display_package`. -/
def display (a : Args) (p : Pkg) : Str := if a.python then python a p else yaml a p

/-- view.rs:56-90 `view_current_package`: the package. -/
def currentPackage (m : Machine) (name : Str) : Outcome Pkg :=
  match m.rxtFile.or m.contextFile with
  | none => .err
  | some file =>
    match m.contextAt file with
    | none => .err
    | some none => .err
    | some (some ps) =>
      match ps.find? fun p => p.name == name with
      | none => .err
      | some p => .ok p

/-- view.rs:124-198 `load_package_from_repos`. -/
def fromRepos (m : Machine) (spec : Str) : Outcome Pkg :=
  match familyOf m.world none (parseSpec spec).1 with
  | .err => .err
  | .panic => .panic
  | .ok ps =>
    if ps.isEmpty then .err
    else match choose m.world.srt ps (parseSpec spec).2 with
      | .ok (some p) => .ok (m.full p)
      | .ok none => .err
      | .err => .err
      | .panic => .panic

/-- view.rs:92-106 `view_package`: the package. -/
def foundPackage (m : Machine) (spec : Str) : Outcome Pkg :=
  match m.here spec with
  | .noDirectory => fromRepos m spec
  | .noPackageFile => .err
  | .unreadable => .err
  | .package p => .ok p

/-- view.rs:45-54 `execute`: what is printed. -/
def execute (m : Machine) (a : Args) : Outcome Str :=
  if !validName a.package then .err
  else match (if a.current then currentPackage m a.package else foundPackage m a.package) with
    | .ok p => .ok (display a p)
    | .err => .err
    | .panic => .panic

end Rez.View
