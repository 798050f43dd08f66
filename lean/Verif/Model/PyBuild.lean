import Verif.Model.BuildSystems
/-!
# Building from Python: `rez-next-python/src/build_functions.rs`, `rez-next-build/src/lib.rs`, `rez-next-build/src/systems/mod.rs`
`get_buildsys_types`, `rez-next-build/src/builder.rs` `start_build`

Parameters: whether `package.py` is there and what loading it gives, `expand_home`, the starting of one build (for which see
`Model/BuildManager.lean`) and what waiting for it gives.  Left out: making the source directory absolute; the texts of errors but the
one of a failed build.
-/
namespace Rez.PyBuild
open Rez Rez.Build

/-- build_functions.rs:103-138 `get_build_system`; `has` says which files are in the directory. -/
def systemName (has : Str → Bool) : Str :=
  if has c!"rezbuild.py" then c!"python_rezbuild"
  else if has c!"CMakeLists.txt" then c!"cmake"
  else if has c!"Makefile" || has c!"makefile" then c!"make"
  else if has c!"setup.py" || has c!"pyproject.toml" then c!"python"
  else if has c!"package.json" then c!"nodejs"
  else if has c!"Cargo.toml" then c!"cargo"
  else if has c!"build.sh" || has c!"build.bat" then c!"custom_script"
  else c!"unknown"

/-- systems/mod.rs:82-93, build_functions.rs:143-147 `get_buildsys_types`. -/
def types : List Str :=
  [c!"cmake", c!"make", c!"python", c!"nodejs", c!"cargo", c!"binary_archive", c!"pypi", c!"custom"]

/-- lib.rs:88-104 `create_build_system`. -/
def createSystem (s : Str) : Option System :=
  if s = c!"cmake" then some .cmake
  else if s = c!"make" then some .make
  else if s = c!"python" then some .python
  else if s = c!"nodejs" then some .nodejs
  else if s = c!"cargo" then some .cargo
  else if s = c!"binary_archive" then some .archive
  else if s = c!"pypi" || s = c!"pip" || s = c!"rez_pip" then some .pypi
  else if s = c!"custom" then some (.custom c!"default")
  else none

/-- build_functions.rs:160-169 `create_build_system`; `none` is an error. -/
def createText (s : Str) : Option Str := (createSystem s).map fun _ => c!"BuildSystem(" ++ s ++ c!")"

/-- The package as far as building looks at it here: its variants. -/
structure Pkg where
  name : Str
  variants : List (List Str)
deriving DecidableEq

/-- build_functions.rs:53-68: what is asked of the manager. -/
structure Request where
  package : Pkg
  clean : Bool
  install : Option Str
deriving DecidableEq

/-- builder.rs:273-286 `start_build` for a request without a variant: no build, or one. -/
def startBuild (start : Request → Option Nat) (r : Request) : Option (List Nat) :=
  if !r.package.variants.isEmpty then none else (start r).map fun id => [id]

/-- build_functions.rs:77-86: all builds are waited for, and the first result is kept; `none` is an error. -/
def waitAll (wait : Nat → Option (Bool × Str)) : List Nat → Option (Bool × Str) → Option (Option (Bool × Str))
  | [], r => some r
  | id :: ids, r =>
    match wait id with
    | none => none
    | some x => waitAll wait ids (if r.isNone then some x else r)

/-- What a call gives: a text, the errors of a build that failed, another error, or a panic. -/
inductive Answer where
  | text (t : Str)
  | failed (errors : Str)
  | err
  | panic
deriving DecidableEq

/-- build_functions.rs:14-99 `build_package`. -/
def build (py : Bool) (loaded : Option Pkg) (start : Request → Option Nat) (wait : Nat → Option (Bool × Str)) (expand : Str → Str)
    (localPath : Str) (install clean : Bool) (path : Option Str) : Answer :=
  if !py then .err
  else
    match loaded with
    | none => .err
    | some p =>
      let dest := some (path.getD (expand localPath))
      match startBuild start ⟨p, clean, if install then dest else none⟩ with
      | none => .err
      | some ids =>
        match waitAll wait ids none with
        | none => .err
        | some none => .panic
        | some (some (ok, errors)) =>
          if ok then .text (c!"Build succeeded: " ++ decimal ids.length ++ c!" builds completed") else .failed errors

end Rez.PyBuild
