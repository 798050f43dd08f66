import Verif.Model.PackageQuery
/-!
# Pip packages from Python: `rez-next-python/src/pip_bindings.rs`

Lower case is that of ASCII.  Left out: the texts of `__repr__` and `__str__`.
-/
namespace Rez.PipApi
open Rez Rez.PackageOrder Rez.PackageQuery

/-- pip_bindings.rs:14-25 `struct PyPipPackage`. -/
structure PipPackage where
  name : Str
  version : Str
  requires : List Str
  description : Str
deriving DecidableEq

/-- pip_bindings.rs:82-86 `normalize_package_name`. -/
def normalize (s : Str) : Str := (s.map lowerChar).map fun c => if c = '_' then '-' else c

/-- `str::trim_start_matches(">=")`. -/
def dropPairs : Str → Str
  | '>' :: '=' :: r => dropPairs r
  | s => s

/-- pip_bindings.rs:99-123: a single specifier.  The branches for `<=`, `<`, `!=` and the last give the text back. -/
def single (s : Str) : Str :=
  match s with
  | '=' :: '=' :: v => v
  | '>' :: '=' :: v => v ++ c!"+"
  | '>' :: v => v ++ c!"+"
  | s => s

/-- `starts_with`. -/
def begins (c : Char) (s : Str) : Bool := s.head? == some c

/-- pip_bindings.rs:94-139 `pip_version_to_rez`. -/
def versionToRez (t : Str) : Str :=
  let parts := (splitChar ',' t).map trim
  match parts with
  | [s] => single s
  | [_, _] =>
    match parts.find? (begins '>'), parts.find? (begins '<') with
    | some lo, some hi => (dropPairs lo).dropWhile (· == '>') ++ c!"+" ++ hi
    | _, _ => joinWith c!"," parts
  | _ => joinWith c!"," parts

/-- pip_bindings.rs:162-173: the name in a specification. -/
def installName (s : Str) : Str :=
  normalize (trim (s.takeWhile fun c => !(c == '=' || c == '>' || c == '<' || c == '!' || c == '~')))

/-- pip_bindings.rs:152-176 `pip_install`: the names of the packages; nothing is installed. -/
def install (packages : List Str) : List Str := packages.map installName

/-- The characters that end a name, pip_bindings.rs:196. -/
def isSpecChar (c : Char) : Bool := c == '>' || c == '<' || c == '=' || c == '!'

/-- pip_bindings.rs:193-206: one requirement. -/
def requirement (r : Str) : Str :=
  let base := trim (r.takeWhile (· != '['))
  let name := base.takeWhile (!isSpecChar ·)
  let rest := base.dropWhile (!isSpecChar ·)
  if rest.isEmpty then normalize name else normalize name ++ c!"-" ++ versionToRez rest

/-- pip_bindings.rs:180-216 `convert_pip_to_rez`. -/
def convert (name version : Str) (requires : Option (List Str)) (description : Option Str) : PipPackage :=
  ⟨normalize name, version, (requires.getD []).map requirement, description.getD []⟩

/-- pip_bindings.rs:282-291: the name in a requirement. -/
def requiredName (r : Str) : Str :=
  normalize ((trim r).takeWhile fun c => !(c == '-' || c == '<' || c == '>' || c == '=' || c == '!' || c == '~'))

/-- pip_bindings.rs:255-302 `get_pip_dependencies`. -/
def dependents (w : World) (name : Str) (paths : Option (List Str)) : Outcome (List Str) :=
  match allFamilies w paths with
  | .ok l => .ok (l.flatMap fun f =>
      (f.2.filter fun p => p.requires.any fun r => requiredName r == normalize name).map fun _ => f.1)
  | .err => .err
  | .panic => .panic

/-- pip_bindings.rs:50-62. -/
def requiresText (l : List Str) : Str :=
  if l.isEmpty then []
  else c!"\nrequires = [\n" ++ joinWith c!"\n" (l.map fun r => c!"    \"" ++ r ++ c!"\",") ++ c!"\n]\n"

/-- pip_bindings.rs:49-79 `to_package_py`. -/
def packagePy (p : PipPackage) : Str :=
  c!"name = \"" ++ p.name ++ c!"\"\nversion = \"" ++ p.version ++ c!"\"\ndescription = \"" ++ p.description ++
  c!"\"\nauthors = [\"pip\"]\n" ++ requiresText p.requires ++
  c!"\ndef commands():\n    import os\n    env.PYTHONPATH.prepend(\"{root}/lib/python{python.major}.{python.minor}/site-packages\")\n"

/-- The files, as far as `write_pip_package` deals with them: the directories that are there, the texts of files, the directories
that cannot be made and the files that cannot be written. -/
structure Disk where
  dirs : List (List Str)
  files : List (List Str × Str)
  cannotMake : List Str → Bool
  cannotWrite : List Str → Bool

/-- pip_bindings.rs:306-334 `write_pip_package`; name and version are single parts of a path.  A file of the name of the directory
counts as being there. -/
def write (d : Disk) (p : PipPackage) (root : List Str) (overwrite : Bool) : Option (List Str) × Disk :=
  let dir := root ++ [p.name, p.version]
  if !overwrite && (d.dirs.contains dir || (mget d.files dir).isSome) then (none, d)
  else if d.cannotMake dir then (none, d)
  else
    let d := { d with dirs := dir :: d.dirs }
    let file := dir ++ [c!"package.py"]
    if d.cannotWrite file then (none, d)
    else (some dir, { d with files := mset d.files file (packagePy p) })

end Rez.PipApi
