import Verif.Model.FsRepository
import Verif.Model.Graph
import Mathlib.Data.List.Sort
/-!
# Handles and resources: `rez-next-repository/src/resources/*.rs`

A hash map is an association list without repeated keys; the order in which it is iterated is a parameter.
-/
namespace Rez.Resources
open Rez Rez.Files Rez.FsRepo

/-- resources/mod.rs:22-30 `struct ResourceHandle`. -/
structure Handle where
  kind : Str
  location : Str
  vars : List (Str × Str)

/-- resources/mod.rs:22 `derive(PartialEq)`: two hash maps are equal when they have the same values under the same keys. -/
def Handle.same (a b : Handle) : Prop :=
  a.kind = b.kind ∧ a.location = b.location ∧ ∀ k, mget a.vars k = mget b.vars k

/-- resources/mod.rs:34-47 `hash`: the texts that the hasher is given, in order; `iter` is the order of the map. -/
def Handle.fed (iter : List (Str × Str) → List (Str × Str)) (h : Handle) : List Str :=
  h.kind :: h.location ::
    ((iter h.vars).insertionSort fun a b => cmpStr a.1 b.1 ≠ .gt).flatMap fun x => [x.1, x.2]

/-- resources/mod.rs:67-80: a handle as text. -/
def Handle.text (h : Handle) : Str :=
  h.kind ++ c!"@" ++ h.location ++ c!"/" ++ (mget h.vars c!"name").getD c!"unknown"

/-- resources/family.rs:14-24 `struct PackageFamilyResource`. -/
structure Family where
  name : Str
  kind : Str
  location : Str
  handle : Option Handle

/-- resources/family.rs:28-35 `new`. -/
def Family.new (name kind location : Str) : Family := ⟨name, kind, location, none⟩

/-- resources/family.rs:44-57 `get_handle`. -/
def Family.getHandle (f : Family) : Handle :=
  match f.handle with
  | some h => h
  | none => ⟨f.kind, f.location, mset [] c!"name" f.name⟩

/-- resources/family.rs:63-71: a family as text. -/
def Family.text (f : Family) : Str := f.kind ++ c!"@" ++ f.location ++ c!"/" ++ f.name

/-- resources/package.rs:13-24 `struct PackageResource`. -/
structure PkgRes where
  package : Package
  kind : Str
  location : Str
  handle : Option Handle

/-- resources/package.rs:28-35 `new`. -/
def PkgRes.new (p : Package) (kind location : Str) : PkgRes := ⟨p, kind, location, none⟩

/-- resources/package.rs:44-60 `get_handle`. -/
def PkgRes.getHandle (p : PkgRes) : Handle :=
  match p.handle with
  | some h => h
  | none =>
    let vars := mset [] c!"name" p.package.name
    ⟨p.kind, p.location, match p.package.version with
      | some v => mset vars c!"version" v.asStr
      | none => vars⟩

/-- resources/package.rs:76-90: a package as text. -/
def PkgRes.text (p : PkgRes) : Str :=
  p.kind ++ c!"@" ++ p.location ++ c!"/" ++ p.package.name ++ c!"-" ++ (p.package.version.map Version.asStr).getD c!"unknown"

/-- resources/variant.rs:14-34 `struct VariantResource`; the metadata are never read and are omitted. -/
structure Variant where
  name : Str
  version : Option Str
  index : Nat
  requirements : List PackageRequirement
  kind : Str
  location : Str
  handle : Option Handle
  root : Option Str

/-- resources/variant.rs:38-58 `new`. -/
def Variant.new (name : Str) (version : Option Str) (index : Nat) (kind location : Str) : Variant :=
  ⟨name, version, index, [], kind, location, none, none⟩

/-- resources/variant.rs:78-84: the requirements that can be read, in order. -/
def readAll : List Str → Outcome (List PackageRequirement)
  | [] => .ok []
  | s :: l =>
    match PackageRequirement.parse s with
    | .panic => .panic
    | .err => readAll l
    | .ok r =>
      match readAll l with
      | .ok rs => .ok (r :: rs)
      | o => o

/-- resources/variant.rs:62-97 `from_package`. -/
def Variant.fromPackage (p : Package) (index : Nat) (kind location : Str) : Outcome (Option Variant) :=
  match p.variants[index]? with
  | none => .ok none
  | some reqs =>
    match readAll reqs with
    | .ok rs => .ok (some ⟨p.name, p.version.map Version.asStr, index, rs, kind, location, none, none⟩)
    | .err => .err
    | .panic => .panic

/-- resources/variant.rs:111-129 `get_handle`. -/
def Variant.getHandle (v : Variant) : Handle :=
  match v.handle with
  | some h => h
  | none =>
    let vars := mset [] c!"name" v.name
    let vars := match v.version with
      | some x => mset vars c!"version" x
      | none => vars
    ⟨v.kind, v.location, mset vars c!"index" (decimal v.index)⟩

/-- resources/variant.rs:139-148: a variant as text. -/
def Variant.text (v : Variant) : Str :=
  v.kind ++ c!"@" ++ v.location ++ c!"/" ++ v.name ++ c!"-" ++ v.version.getD c!"unknown" ++ c!"(variant " ++ decimal v.index ++ c!")"

/-- `Package::new` of rez-next-package, with a version. -/
def bare (name : Str) (version : Option Version) : Package := ⟨name, version, [], [], [], none⟩

/-- package_repository/filesystem.rs:225-291: the packages of a family as resources; `loc` is the text of the location. -/
def iterPackages (order : Order) (r : Repo) (loc : Str) (fs : FS) (f : Family) : List PkgRes :=
  (packages order r fs f.name).map fun p => .new (bare f.name p.2) c!"filesystem" loc

/-- package_repository/filesystem.rs:293-328 `iter_variants`. -/
def iterVariants (r : Repo) (loc : Str) (fs : FS) (p : PkgRes) : List Variant :=
  match p.package.version with
  | none => []
  | some v =>
    if mget fs (join (join r.location p.package.name) v.asStr) = some .dir then
      [.new p.package.name (some v.asStr) 0 c!"filesystem" loc]
    else []

/-- package_repository/filesystem.rs:550-560 `get_parent_package_family`. -/
def parentFamily (loc : Str) (p : PkgRes) : Option Family :=
  if valid p.package.name then some (.new p.package.name c!"filesystem" loc) else none

/-- package_repository/filesystem.rs:562-579 `get_parent_package`. -/
def parentPackage (loc : Str) (v : Variant) : Option PkgRes :=
  if valid v.name then
    match v.version with
    | none => some (.new (bare v.name none) c!"filesystem" loc)
    | some s =>
      match Version.parse s with
      | none => none
      | some w => some (.new (bare v.name (some w)) c!"filesystem" loc)
  else none

end Rez.Resources
