import Verif.Model.DependsApi
import Verif.Spec.PackageQuery
/-!
# What asking for reverse dependencies promises
-/
namespace Rez.DependsApi.Spec
open Rez Rez.DependsApi Rez.PackageOrder Rez.PackageQuery Rez.Spec.PackageQuery Rez.Spec.Repository

/-- All packages in the directories that are searched. -/
def everything (w : World) (paths : Option (List Str)) : List Package :=
  (searched w paths).flatMap fun d => match w.dir d with | some root => onDisk root | none => []

/-- No requirement of the packages is one whose reading panics. -/
def Legible (all : List Package) : Prop := ∀ p ∈ all, ∀ r ∈ p.requires, PackageRequirement.parse r ≠ .panic

/-- The requirement is of the package `name` and, as far as both have a range that can be read, of versions of the range. -/
def Requires (name : Str) (range : Option Str) (r : Str) : Prop :=
  ∃ q, PackageRequirement.parse r = .ok q ∧ q.name = name ∧
    ∀ t x s y, range = some t → t ≠ [] → VersionRange.parse t = some x → q.spec = some s → VersionRange.parse s = some y →
      y.intersects x = true

/-- The requirement is the first of the package with this property. -/
def First (P : Str → Prop) (p : Package) (r : Str) : Prop :=
  ∃ before after, p.requires = before ++ r :: after ∧ P r ∧ ∀ x ∈ before, ¬ P x

/-- The text of the version. -/
def versionText (p : Package) : Str := match p.version with | some v => v.repr | none => c!"unknown"

/-- The entry is about the package and the first such requirement. -/
def EntryOf (P : Str → Prop) (direct : Bool) (p : Package) (e : Entry) : Prop :=
  e.name = p.name ∧ e.version = versionText p ∧ First P p e.requirement ∧ e.direct = direct

/-- The package has a requirement with the property. -/
def HasOne (P : Str → Prop) (p : Package) : Prop := ∃ r ∈ p.requires, P r

/-- A requirement of a package of these names. -/
def OfOne (names : List Str) (r : Str) : Prop := ∃ q, PackageRequirement.parse r = .ok q ∧ q.name ∈ names

/-- By name and version. -/
def InOrder (a b : Entry) : Prop := cmpStr a.name b.name = .lt ∨ a.name = b.name ∧ cmpStr a.version b.version ≠ .gt

/-- The line of an entry. -/
def lineOf (e : Entry) : Str := c!"    " ++ e.name ++ c!"-" ++ e.version ++ c!"  (requires '" ++ e.requirement ++ c!"')"

end Rez.DependsApi.Spec
