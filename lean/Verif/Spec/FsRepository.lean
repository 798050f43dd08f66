import Verif.Model.FsRepository
import Verif.Spec.PackageFiles
/-!
# Specification vocabulary for the filesystem package repository
-/
namespace Rez.Spec.FsRepo
open Rez Rez.Files Rez.FsRepo

/-- The directory of a version. -/
def dirOf (r : Repo) (name v : Str) : Path := r.location ++ [name, v]

/-- The file that hides a version. -/
def markerOf (r : Repo) (name v : Str) : Path := r.location ++ [name, c!".ignore" ++ v]

/-- The version is among the packages of the family. -/
def Listed (order : Order) (r : Repo) (fs : FS) (name v : Str) : Prop := ∃ w, (v, w) ∈ packages order r fs name

/-- A name that a listing does not leave out. -/
def Plain (v : Str) : Prop := v.head? ≠ some '.' ∧ v.head? ≠ some '_'

/-- There is a file that hides the version. -/
def Hidden (r : Repo) (fs : FS) (name v : Str) : Prop := ∃ c, mget fs (markerOf r name v) = some (.file c)

/-- What has the name of a marker is a file. -/
def MarkersAreFiles (r : Repo) (fs : FS) : Prop :=
  ∀ name v e, mget fs (markerOf r name v) = some e → ∃ c, e = .file c

/-- What is done to a repository from outside. -/
inductive Op where
  | ignore (name v : Str) (allowMissing : Bool)
  | unignore (name v : Str)

/-- The version concerned. -/
def Op.on : Op → Str × Str
  | .ignore n v _ => (n, v)
  | .unignore n v => (n, v)

/-- The name and the version are each one component of a path. -/
def Op.Ok (o : Op) : Prop := Spec.Files.Component o.on.1 ∧ Spec.Files.Component o.on.2

/-- The file system after an operation. -/
def Op.run (r : Repo) (fs : FS) : Op → FS
  | .ignore n v a => Files.run fs (FsRepo.ignore r fs n (some v) a).1
  | .unignore n v => Files.run fs (FsRepo.unignore r fs n (some v)).1

/-- The file system after some operations. -/
def after (r : Repo) (fs : FS) (ops : List Op) : FS := ops.foldl (Op.run r) fs

/-- Whether the last operation on a version hides it; `start` if there is none. -/
def lastHides (name v : Str) (start : Prop) (ops : List Op) : Prop :=
  match (ops.filter fun o => o.on = (name, v)).getLast? with
  | none => start
  | some (.ignore _ _ _) => True
  | some (.unignore _ _) => False

/-- The marker of the version was made at least so long ago; one from the future was made just now. -/
def OldMarker (r : Repo) (fs : FS) (created : Path → Nat) (now age : Nat) (name v : Str) : Prop :=
  v ≠ [] ∧ (∃ c, mget fs (markerOf r name v) = some (.file c)) ∧ age ≤ now - created (markerOf r name v)

/-- Names in the file system are names. -/
def Names (fs : FS) : Prop := ∀ p ∈ mkeys fs, ∀ s ∈ p, Spec.Files.Component s

end Rez.Spec.FsRepo
