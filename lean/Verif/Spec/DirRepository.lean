import Verif.Model.DirRepository
import Verif.Spec.Repository
import Verif.Spec.RuleFilter
/-!
# Specification vocabulary for repositories that scan their directory once
-/
namespace Rez.Spec.DirRepo
open Rez Rez.DirRepo Rez.PackageOrder

/-- The package files of a directory that can be loaded, at both levels. -/
def filesOf (f : Family) : List File := (f.own.join).toList ++ f.versions.filterMap fun v => v.join

/-- The package files of a repository that can be loaded. -/
def filesIn (d : List Family) : List File := d.flatMap filesOf

/-- Their packages. -/
def onDisk (d : List Family) : List Package := (filesIn d).map File.pkg

/-- No directory with a package file has a subdirectory with a package that can be loaded. -/
def Separate (d : List Family) : Prop := ∀ f ∈ d, f.own.isSome → ∀ v ∈ f.versions, v.join.isNone

/-- What a package is found by: its name and the text of its version. -/
def ident (p : Package) : Str × Option Str := (p.name, p.version.map Version.asStr)

/-- No two package files are for the same version of the same package, and no version is called `latest`. -/
def Distinct (d : List Family) : Prop :=
  ((onDisk d).map ident).Nodup ∧ ∀ p ∈ onDisk d, ∀ v, p.version = some v → v.asStr ≠ c!"latest"

/-- The maps are iterated in some order. -/
def HashOk (h : Hash) : Prop := (∀ l, (h.outer l).Perm l) ∧ ∀ l, (h.inner l).Perm l

/-- The repository after a scan of a directory. -/
def scanned (d : List Family) : State := (rescan (.dir d) State.new).1

/-- What a criterion without limit asks for; `fits` says which names its pattern means. -/
structure Wanted (c : Criteria) (fits : Str → Prop) (p : Package) : Prop where
  name : fits p.name
  version : ∀ r, c.version = some r → r ≠ [] → ∀ v, p.version = some v → v.asStr = r
  prerelease : c.prerelease = false → ∀ v, p.version = some v → v.isPrerelease = false
  requirements : ∀ r ∈ c.requirements, r.name = p.name → ∀ v, p.version = some v → r.satisfiedBy v = true

end Rez.Spec.DirRepo
