import Verif.Model.PackageQuery
import Verif.Spec.Repository
import Verif.Spec.Search
/-!
# Specification vocabulary for asking for packages by name, text and URI
-/
namespace Rez.Spec.PackageQuery
open Rez Rez.PackageQuery Rez.PackageOrder Rez.Repository Rez.Spec.Repository

/-- `~` and `~/...` with the home directory in place of the tilde. -/
def atHome (home : Option Str) (p : Str) : Str :=
  match home, p with
  | some h, ['~'] => h
  | some h, '~' :: '/' :: rest => h ++ '/' :: rest
  | _, p => p

/-- Where is looked: in the paths that are given, or else in those of the configuration. -/
def searched (w : World) : Option (List Str) → List Str
  | some given => given
  | none => w.packagesPath.map (atHome w.home)

/-- The packages of a family in all of them. -/
def available (w : World) (paths : Option (List Str)) (name : Str) : List Package :=
  (searched w paths).flatMap fun d => match w.dir d with | some root => ofFamily root name | none => []

/-- Everything in them can be read. -/
def Readable (w : World) (paths : Option (List Str)) : Prop := ∀ d ∈ searched w paths, ∀ root, w.dir d = some root → Sound root

/-- The package is within the range, as far as there is a range, a version and a meaning of the range. -/
def Within (range : Option Str) (p : Package) : Prop :=
  ∀ t v r, range = some t → p.version = some v → VersionRange.parse t = some r → r.contains v = true

/-- A sort leaves a list alone that is in order. -/
def Keeps (s : Sorting) : Prop := ∀ c l, l.Pairwise (fun x y => c x y ≠ .gt ∧ c y x ≠ .lt) → s.sort c l = .ok l

/-- The version of the package is written so. -/
def Written (p : Package) (text : Str) : Prop := ∃ v, p.version = some v ∧ v.repr = text

/-- No package of the family in question is above `p`. -/
def Top (p : Package) (ps : List Package) (ok : Package → Prop) : Prop :=
  (p ∈ ps ∧ ok p) ∧ ∀ q ∈ ps, ok q → (p.version = none → q.version = none) ∧
    ∀ u v, p.version = some u → q.version = some v → u.cmp v ≠ .lt

/-- The package in a directory: `package.py` if it is there and can be loaded, or else `package.json`. -/
def HoldsIn (w : World) (dir : Str) (p : Package) : Prop :=
  (w.exists_ (dir ++ c!"/package.py") = true ∧ w.load (dir ++ c!"/package.py") = some p) ∨
  ((w.exists_ (dir ++ c!"/package.py") = false ∨ w.load (dir ++ c!"/package.py") = none) ∧
    w.exists_ (dir ++ c!"/package.json") = true ∧ w.load (dir ++ c!"/package.json") = some p)

/-- The package at a path: a file that is there and can be loaded, or else the package in the directory. -/
def HoldsAt (w : World) (path : Str) (p : Package) : Prop :=
  (w.exists_ path = true ∧ w.load path = some p) ∨
  ((w.exists_ path = false ∨ w.load path = none) ∧ w.isDir path = true ∧ HoldsIn w path p)

/-- A path that is neither empty nor ends in a slash. -/
def PlainPath (path : Str) : Prop := path ≠ [] ∧ path.getLast? ≠ some '/'

end Rez.Spec.PackageQuery
