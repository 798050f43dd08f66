import Verif.Model.Search
import Verif.Model.RexShell
import Verif.Model.Bind
import Verif.Model.Serialization
/-!
# The status page: src/cli/commands/gui.rs

Parameters: what a path holds, the head of the page (literal text up to the number of packages), and the time of writing.  Left out:
opening the browser, the messages on the terminal, names that are not UTF-8.
-/
namespace Rez.GuiReport
open Rez

/-- gui.rs:12-20 `GuiArgs`; `open` is left out. -/
structure Args where
  output : Option Str
  package : Option Str

/-- gui.rs:23-28 `PkgInfo`. -/
structure PkgInfo where
  repo : Str
  name : Str
  version : Str
  description : Str
deriving DecidableEq

/-- An entry of a family: its name and, if it is a directory, what `package.py` says if it can be read. -/
abbrev VersionEntry := Str × Option (Option Str)

/-- An entry of a repository: its name and, if it is a directory that can be listed, its entries in the order of `read_dir`. -/
abbrev FamilyEntry := Str × Option (List VersionEntry)

/-- gui.rs:108-118: what one line of `package.py` says of the description. -/
def lineDescription (line : Str) : Option Str :=
  let trimmed := trim line
  if c!"description".isPrefixOf trimmed && trimmed.contains '=' then
    match (splitChar '=' trimmed)[1]? with
    | some val =>
      let s := Bind.strip (· == '\'') (Bind.strip (· == '"') (trim val))
      if s.isEmpty then none else some s
    | none => none
  else none

/-- gui.rs:100-123 `read_description`. -/
def readDescription (content : Option Str) : Str :=
  match content with
  | some text => ((Serial.linesOf text).findSome? lineDescription).getD []
  | none => []

/-- gui.rs:63-81: the packages of a family. -/
def ofFamily (repo family : Str) (vs : List VersionEntry) : List PkgInfo :=
  vs.filterMap fun v => v.2.map fun content => ⟨repo, family, v.1, readDescription content⟩

/-- gui.rs:47-85: the packages of a repository. -/
def ofRepo (package : Option Str) (repo : Str) (fs : List FamilyEntry) : List PkgInfo :=
  fs.flatMap fun f =>
    if package.any (fun x => f.1 != x) then []
    else match f.2 with
      | some vs => ofFamily repo f.1 vs
      | none => []

/-- gui.rs:39-41, 139-141: the paths of the settings, and then that of local packages. -/
def allPaths (configured : List Str) (localPath : Str) : List Str := configured ++ [localPath]

/-- gui.rs:88: by name and then by version, as texts. -/
def before (a b : PkgInfo) : Prop := (cmpStr a.name b.name).then (cmpStr a.version b.version) ≠ .gt

instance : DecidableRel before := fun a b => inferInstanceAs (Decidable (_ ≠ _))

/-- gui.rs:38-88: the packages on the page; `disk` is what a path holds, `none` if it is not there or cannot be listed. -/
def packages (disk : Str → Option (List FamilyEntry)) (paths : List Str) (package : Option Str) : List PkgInfo :=
  (paths.flatMap fun r => ofRepo package r ((disk r).getD [])).insertionSort before

/-- gui.rs:240-246 `html_escape`. -/
def escape (s : Str) : Str :=
  RexShell.replaceChar '\'' c!"&#39;" (RexShell.replaceChar '"' c!"&quot;" (RexShell.replaceChar '>' c!"&gt;"
    (RexShell.replaceChar '<' c!"&lt;" (RexShell.replaceChar '&' c!"&amp;" s))))

/-- gui.rs:127-143: the row of a package. -/
def row (p : PkgInfo) : Str :=
  c!"<tr>\n  <td class=\"name\">" ++ escape p.name ++ c!"</td>\n  <td class=\"version\">" ++ escape p.version ++
    c!"</td>\n  <td class=\"repo\">" ++ escape p.repo ++ c!"</td>\n  <td class=\"desc\">" ++ escape p.description ++ c!"</td>\n</tr>"

/-- gui.rs:145-152: the entry of a path. -/
def pathItem (p : Str) : Str := c!"<li><code>" ++ escape p ++ c!"</code></li>"

/-- gui.rs:221-234: the table. -/
def table (ps : List PkgInfo) : Str :=
  if ps.isEmpty then c!"<div class=\"empty\">No packages found in repositories.</div>"
  else c!"<table>\n  <thead>\n    <tr><th>Package</th><th>Version</th><th>Repository</th><th>Description</th></tr>\n  </thead>\n  <tbody>\n    " ++
    ps.flatMap row ++ c!"\n  </tbody>\n</table>"

/-- gui.rs:126-237 `generate_html_report`; `head` is the literal text up to the number of packages. -/
def page (head timestamp : Str) (paths : List Str) (ps : List PkgInfo) : Str :=
  head ++ decimal ps.length ++
    c!"</div>\n        <div class=\"label\">Total Packages</div>\n      </div>\n    </div>\n    <div class=\"section\">\n      <h2>Package Repositories</h2>\n      <ul class=\"repos\">\n        " ++
    paths.flatMap pathItem ++
    c!"\n      </ul>\n    </div>\n    <div class=\"section\">\n      <h2>Packages</h2>\n      " ++ table ps ++
    c!"\n    </div>\n    <div class=\"timestamp\">Generated: " ++ timestamp ++ c!"</div>\n  </div>\n</body>\n</html>"

/-- gui.rs:31-97 `execute`: the file that is written, and its text. -/
def execute (head timestamp : Str) (disk : Str → Option (List FamilyEntry)) (configured : List Str) (localPath : Str) (a : Args) :
    Str × Str :=
  let paths := allPaths configured localPath
  (a.output.getD c!"rez-status.html", page head timestamp paths (packages disk paths a.package))

end Rez.GuiReport
