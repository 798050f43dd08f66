import Verif.Model.PyBuild
/-!
# What building from Python should do
-/
namespace Rez.Spec.PyBuild
open Rez Rez.Build Rez.PyBuild

/-- The name that stands for a system. -/
def nameOf : System → Str
  | .cmake => c!"cmake"
  | .make => c!"make"
  | .python => c!"python"
  | .nodejs => c!"nodejs"
  | .cargo => c!"cargo"
  | .archive => c!"binary_archive"
  | .pypi => c!"pypi"
  | .custom s => if s = c!"rezbuild.py" then c!"python_rezbuild" else if s = c!"default" then c!"unknown" else c!"custom_script"

/-- The files that are build scripts. -/
def scripts : List Str := [c!"build.sh", c!"build.bat", c!"build.py", c!"build"]

/-- The files by which another system is known. -/
def others : List Str :=
  [c!"CMakeLists.txt", c!"Makefile", c!"makefile", c!"setup.py", c!"pyproject.toml", c!"package.json", c!"Cargo.toml"]

/-- Where a package goes: nowhere, unless it is to be installed; then to the path given, or to the local packages. -/
def Goes (install : Bool) (path : Option Str) (localDir : Str) (dest : Option Str) : Prop :=
  (install = false ∧ dest = none) ∨ (install = true ∧ ∃ p, path = some p ∧ dest = some p) ∨ (install = true ∧ path = none ∧ dest = some localDir)

end Rez.Spec.PyBuild
