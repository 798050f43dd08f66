import Verif.Model.BuildCopy
import Verif.Spec.PackageFiles
/-!
# What installing by copying promises
-/
namespace Rez.Build.Spec
open Rez Rez.Files Rez.Spec.Files

/-- The system lists every name of a directory once. -/
def ListsAll (order : Listing) : Prop := ∀ l, (order l).Perm l

/-- A path in the source that is to be installed: its first name is not one of those to leave out. -/
def Installed (r : Path) : Prop := ∃ x rest, r = x :: rest ∧ skipped x = false

/-- The names to leave out, as the documentation of the command lists them: version control, build output, caches. -/
def leftOut : List Str :=
  [c!".git", c!".gitignore", c!".gitmodules", c!".hg", c!".hgignore", c!".svn", c!"build", c!"dist", c!"__pycache__",
   c!".pytest_cache", c!".tox", c!"node_modules", c!".DS_Store", c!"Thumbs.db", c!".coverage", c!"coverage.xml"]

/-- The endings of names to leave out. -/
def endings : List Str := [c!".pyc", c!".pyo", c!".log"]

/-- A change of the file system that only concerns the directory `d`: what is in it, and the directories that lead to it. -/
def Within (fs : FS) (d : Path) (fs' : FS) : Prop :=
  ∀ q, ¬ d <+: q → mget fs' q = mget fs q ∨ (q <+: d ∧ mget fs q = none ∧ mget fs' q = some .dir)

/-- A step that fills in a file. -/
def isWrite : Step → Bool
  | .write _ _ => true
  | _ => false

end Rez.Build.Spec
