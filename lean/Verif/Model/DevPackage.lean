import Verif.Model.Serialization
/-!
# Packages in a working directory: rez-next-package/src/developer_package.rs

Paths are lists of names.  Left out: the texts of errors.
-/
namespace Rez.DevPackage
open Rez Rez.Serial

/-- What is at a path; a link counts as what it leads to. -/
inductive Node where
  | dir
  /-- a file; `none` if it cannot be read or is not UTF-8 -/
  | file (content : Option Str)
  | special
deriving DecidableEq

/-- What is at each path. -/
abbrev Disk := List Str → Option Node

/-- developer_package.rs:27-45 `DeveloperPackageError`, the errors that can be met. -/
inductive Error where
  | fileNotFound (dir : List Str)
  | io
  | parse
deriving DecidableEq

/-- developer_package.rs:67-76 `DeveloperPackage`. -/
structure Dev where
  package : Pkg
  filepath : List Str
  root : List Str
  includes : List Str

/-- A result, an error, or a panic. -/
inductive Res (α : Type) where
  | ok (a : α)
  | err (e : Error)
  | panic

/-- developer_package.rs:113-114 `exists() && is_file()`. -/
def isFile : Option Node → Bool
  | some (.file _) => true
  | _ => false

/-- developer_package.rs:110-122 `find_definition_file`. -/
def findFile (d : Disk) (dir : List Str) : Option (List Str) :=
  [dir ++ [c!"package.py"], dir ++ [c!"package.yaml"]].find? fun p => isFile (d p)

/-- developer_package.rs:125-135 `load_package_definition`. -/
def loadFile (c : Codecs) (alnum : Char → Bool) (d : Disk) (path : List Str) : Res Pkg :=
  match d path with
  | some (.file (some content)) =>
    match loadText c alnum content (if (path.getLast?.bind Context.extension) = some c!"yaml" then .yaml else .python) with
    | .ok p => .ok p
    | .err => .err .parse
    | .panic => .panic
  | _ => .err .io

/-- developer_package.rs:80-92 `new`; the parent of a path without names is taken to be `.`. -/
def new (p : Pkg) (filepath : List Str) : Dev :=
  { package := p, filepath := filepath, root := if filepath.isEmpty then [c!"."] else filepath.dropLast, includes := [] }

/-- developer_package.rs:142-148 `collect_includes`: nothing is collected. -/
def collectIncludes (x : Dev) : Dev := x

/-- developer_package.rs:98-106 `from_path`, and developer_package_bindings.rs:62-66, where each error is a `RuntimeError`. -/
def fromPath (c : Codecs) (alnum : Char → Bool) (d : Disk) (dir : List Str) : Res Dev :=
  match findFile d dir with
  | none => .err (.fileNotFound dir)
  | some path =>
    match loadFile c alnum d path with
    | .ok p => .ok (collectIncludes (new p path))
    | .err e => .err e
    | .panic => .panic

end Rez.DevPackage
