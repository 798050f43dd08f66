import Verif.Model.BuildEnv
/-!
# What a build may rely on about its directories and variables

Written from the documentation of rez builds, without the functions of the model: texts of paths and tables of variables.
-/
namespace Rez.Build.Spec
open Rez

/-- A name that is one component of a path. -/
def Plain (s : Str) : Prop := s ≠ [] ∧ '/' ∉ s

/-- A directory as users write it: not empty and with no slash at the end. -/
def DirText (s : Str) : Prop := s ≠ [] ∧ s.getLast? ≠ some '/'

/-- A directory in another. -/
def sub (d n : Str) : Str := d ++ '/' :: n

/-- The variables of the variant: they win over everything. -/
def variantTable (m : Machine) (p : Pack) (index : Option Nat) (requires : Option (List Str)) : List (Str × Str) :=
  match index with
  | none => []
  | some i =>
    let reqs := p.requires ++ p.buildRequires ++ p.privateBuildRequires ++ requires.getD []
    (match requires with
      | some l => [(c!"REZ_BUILD_VARIANT_SUBPATH", m.hash l)]
      | none => []) ++
    [(c!"REZ_BUILD_VARIANT_INDEX", m.shownIndex i),
     (c!"REZ_BUILD_VARIANT_REQUIRES", joinWith c!" " (requires.getD [])),
     (c!"REZ_BUILD_REQUIRES", joinWith c!" " reqs),
     (c!"REZ_BUILD_REQUIRES_UNVERSIONED", joinWith c!" " (reqs.map m.nameOf))]

/-- The variables of the source. -/
def sourceTable (r : Request) (projectFile : Str) : List (Str × Str) :=
  [(c!"REZ_BUILD_SOURCE_PATH", r.sourceDir), (c!"REZ_BUILD_PROJECT_FILE", projectFile)]

/-- The variables that every build has, before any other is set. -/
def standardTable (m : Machine) (r : Request) (buildDir installDir : Str) : List (Str × Str) :=
  let p := r.package
  let version := match p.version with | some v => v | none => c!"0.0.0"
  let reqs := p.requires ++ p.buildRequires ++ p.privateBuildRequires
  [(c!"REZ_BUILD_ENV", c!"1"),
   (c!"REZ_BUILD_TYPE", c!"local"),
   (c!"REZ_BUILD_INSTALL", match r.installPath with | some _ => c!"1" | none => c!"0"),
   (c!"REZ_BUILD_PACKAGE_NAME", p.name),
   (c!"REZ_BUILD_PROJECT_NAME", p.name),
   (c!"REZ_BUILD_PACKAGE_VERSION", version),
   (c!"REZ_BUILD_PROJECT_VERSION", version),
   (c!"REZ_BUILD_INSTALL_PATH", installDir),
   (c!"REZ_BUILD_PATH", buildDir),
   (c!"REZ_BUILD_PROJECT_DESCRIPTION", trim p.description),
   (c!"REZ_BUILD_THREAD_COUNT", m.threads),
   (c!"REZ_BUILD_VARIANT_INDEX", c!"0"),
   (c!"REZ_BUILD_VARIANT_REQUIRES", []),
   (c!"REZ_BUILD_VARIANT_SUBPATH", []),
   (c!"REZ_BUILD_REQUIRES", joinWith c!" " reqs),
   (c!"REZ_BUILD_REQUIRES_UNVERSIONED", joinWith c!" " (reqs.map m.nameOf))]

/-- The file that declares the package: the one it was loaded from, or the first of three in the source directory. -/
def DeclaredIn (m : Machine) (r : Request) (f : Str) : Prop :=
  match r.package.filepath with
  | some g => f = g
  | none =>
    let at_ := fun n => pjoin r.sourceDir n
    (m.exists_ (at_ c!"package.py") = true ∧ f = at_ c!"package.py") ∨
    (m.exists_ (at_ c!"package.py") = false ∧ m.exists_ (at_ c!"package.yaml") = true ∧ f = at_ c!"package.yaml") ∨
    (m.exists_ (at_ c!"package.py") = false ∧ m.exists_ (at_ c!"package.yaml") = false ∧
      m.exists_ (at_ c!"package.yml") = true ∧ f = at_ c!"package.yml") ∨
    (m.exists_ (at_ c!"package.py") = false ∧ m.exists_ (at_ c!"package.yaml") = false ∧
      m.exists_ (at_ c!"package.yml") = false ∧ f = at_ c!"package.py")

/-- The value in the first of the tables that has the variable. -/
def firstIn (tables : List (List (Str × Str))) (k : Str) : Option Str := tables.findSome? fun t => mget t k

/-- A request's maps are maps. -/
def Maps (s : Settings) (r : Request) : Prop :=
  (mkeys s.env).Nodup ∧ (mkeys r.env).Nodup ∧ (mkeys (r.context.getD [])).Nodup

end Rez.Build.Spec
