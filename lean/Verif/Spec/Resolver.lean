import Verif.Model.Resolver
import Mathlib.Logic.Relation
/-!
# Specification vocabulary for the resolver
-/
namespace Rez.Spec
open Rez

/-- What is assumed of the surroundings: iterating a map yields its entries in some order, sorting yields a
rearrangement, and a repository asked for a family answers with packages of that family. -/
structure EnvOk (env : Env) : Prop where
  order : ∀ t l, (env.order t l).Perm l
  keyOrder : ∀ l, (env.keyOrder l).Perm l
  sort : ∀ c l, (env.sort c l).Perm l
  named : ∀ n ps, env.repo n = some ps → ∀ p ∈ ps, p.name = n

/-- The package lies in the range of the requirement (a package without a version always does). -/
def InRange (r : Requirement) (p : Package) : Prop := ∀ v, p.version = some v → r.satisfiedBy v = true

/-- The requirement holds in a set of packages: one of them satisfies it; for a weak requirement, all packages of
that family (there may be none) are in its range. -/
def Holds (ps : List Package) (r : Requirement) : Prop :=
  if r.weak then ∀ p ∈ ps, p.name = r.name → InRange r p
  else ∃ p ∈ ps, p.name = r.name ∧ InRange r p

/-- A requirement text of the package itself or of the variant chosen for it. -/
def Demands (i : Info) (raw : Str) : Prop :=
  raw ∈ i.package.requires ∨ ∃ k vs, i.variantIndex = some k ∧ i.package.variants[k]? = some vs ∧ raw ∈ vs

/-- A requirement text that begins with `!` is a conflict. -/
def IsConflictText (raw : Str) : Prop := raw.head? = some '!'

/-- The packages of a resolve. -/
def packagesOf (res : List Info) : List Package := res.map fun i => i.package

/-- The families a request needs, given the packages resolved: those it names without `~` or `!`, and those that a
package of a needed family requires without `~` or `!`. -/
inductive Needed (reqs : List Requirement) (res : List Info) : Str → Prop
  | request {r} : r ∈ reqs → r.weak = false → r.conflict = false → Needed reqs res r.name
  | package {i raw r} : i ∈ res → Needed reqs res i.package.name → Demands i raw → ¬ IsConflictText raw →
      Requirement.parse raw = some r → r.weak = false → Needed reqs res r.name

/-- Family `a` requires family `b` (weakly or not) in a resolve. -/
def Requires (res : List Info) (a b : Str) : Prop :=
  ∃ i ∈ res, i.package.name = a ∧ ∃ raw r, Demands i raw ∧ ¬ IsConflictText raw ∧ Requirement.parse raw = some r ∧
    r.name = b

/-- No package in the list lies in the range of the requirement. -/
def Excluded (ps : List Package) (r : Requirement) : Prop := ∀ p ∈ ps, p.name = r.name → ¬ InRange r p

/-- The prerelease policy. -/
def ReleaseOk (env : Env) (p : Package) : Prop :=
  ∀ v, p.version = some v → env.allowPrerelease = true ∨ v.isPrerelease = false

/-- A package that a repository lists. -/
def Listed (env : Env) (p : Package) : Prop := ∃ ps, env.repo p.name = some ps ∧ p ∈ ps

/-- One of its variants is chosen for a package that has variants, none for one that has none. -/
def VariantChosen (i : Info) : Prop :=
  (i.package.variants = [] ∧ i.variantIndex = none) ∨
    ∃ k vs, i.variantIndex = some k ∧ i.package.variants[k]? = some vs

/-- What a resolve is meant to find. -/
structure Solution (env : Env) (reqs : List Requirement) (res : List Info) : Prop where
  listed : ∀ i ∈ res, Listed env i.package
  release : ∀ i ∈ res, ReleaseOk env i.package
  variant : ∀ i ∈ res, VariantChosen i
  onePerFamily : (res.map fun i => i.package.name).Nodup
  request : ∀ r ∈ reqs, r.conflict = false → Holds (packagesOf res) r
  requestConflict : ∀ r ∈ reqs, r.conflict = true → Excluded (packagesOf res) r
  requires : ∀ i ∈ res, ∀ raw, Demands i raw → ¬ IsConflictText raw →
    ∃ r, Requirement.parse raw = some r ∧ Holds (packagesOf res) r
  conflicts : ∀ i ∈ res, ∀ raw, Demands i raw → IsConflictText raw →
    ∃ r, Requirement.parse raw.tail = some r ∧ Excluded (packagesOf res) r
  acyclic : ∀ n, ¬ Relation.TransGen (Requires res) n n

/-- What is assumed of sorting: if the comparison is transitive and antisymmetric on the elements, no element of
the result is greater than a later one. -/
def SortOk (env : Env) : Prop :=
  ∀ c l, (∀ x ∈ l, ∀ y ∈ l, c y x = (c x y).swap) →
    (∀ x ∈ l, ∀ y ∈ l, ∀ z ∈ l, c x y ≠ .gt → c y z ≠ .gt → c x z ≠ .gt) →
    (env.sort c l).Pairwise fun x y => c x y ≠ .gt

/-- Newest first: no version is followed by a greater one, and packages without a version come first. -/
def NewestFirst (ps : List Package) : Prop :=
  ps.Pairwise fun p q => (q.version = none → p.version = none) ∧
    ∀ u v, p.version = some u → q.version = some v → u.cmp v ≠ .lt

/-- Oldest first: no version is followed by a smaller one, and packages without a version come last. -/
def OldestFirst (ps : List Package) : Prop :=
  ps.Pairwise fun p q => (p.version = none → q.version = none) ∧
    ∀ u v, p.version = some u → q.version = some v → u.cmp v ≠ .gt

/-- Comparison of versions is transitive among the versions of these packages. -/
def Comparable (ps : List Package) : Prop :=
  ∀ p ∈ ps, ∀ q ∈ ps, ∀ r ∈ ps, ∀ u v w, p.version = some u → q.version = some v → r.version = some w →
    u.cmp v ≠ .gt → v.cmp w ≠ .gt → u.cmp w ≠ .gt

/-- The versions of a family differ in nothing but the version: same requirements, no variants. -/
def Uniform (env : Env) : Prop :=
  ∀ n ps, env.repo n = some ps → (∀ p ∈ ps, p.variants = []) ∧ ∀ p ∈ ps, ∀ q ∈ ps, p.requires = q.requires

/-- A requirement text of the package or of any of its variants. -/
def TextOf (p : Package) (raw : Str) : Prop := raw ∈ p.requires ∨ ∃ vs ∈ p.variants, raw ∈ vs

/-- The families can be listed so that the request names families of the list and packages require only families
that come later in the list: no family requires itself, directly or not. -/
structure Layered (env : Env) (reqs : List Requirement) (fams : List Str) : Prop where
  request : ∀ r ∈ reqs, r.conflict = false → r.name ∈ fams
  later : ∀ p, Listed env p → p.name ∈ fams → ∀ raw, TextOf p raw → ¬ IsConflictText raw →
    ∀ r, Requirement.parse raw = some r → r.name ∈ fams ∧ fams.idxOf p.name < fams.idxOf r.name

/-- The requirement is part of the request or stated by a listed package. -/
def Stated (env : Env) (reqs : List Requirement) (r : Requirement) : Prop :=
  r ∈ reqs ∨ ∃ p, Listed env p ∧ ∃ raw, TextOf p raw ∧ ¬ IsConflictText raw ∧ Requirement.parse raw = some r

/-- Stated requirements that count as equal accept the same listed packages. -/
def SpellingsAgree (env : Env) (reqs : List Requirement) : Prop :=
  ∀ r r' : Requirement, Stated env reqs r → Stated env reqs r' → r.eqv r' = true →
    ∀ p, Listed env p → InRange r p → InRange r' p

/-- What is assumed of a set of versions: it starts empty, contains what was inserted, and keeps it. -/
structure SetOk (env : Env) : Prop where
  empty : ∀ v, env.inSet [] v = false
  inserted : ∀ l v, env.inSet (v :: l) v = true
  kept : ∀ l u v, env.inSet l v = true → env.inSet (u :: l) v = true

/-- A requirement text of a variant that can be read, and if it begins with `!`, does not exclude a resolved
package. -/
def TextAdmits (res : List Info) (raw : Str) : Prop :=
  if raw.head? = some '!' then
    ∃ r, Requirement.parse raw.tail = some r ∧ ∀ i ∈ res, i.package.name = r.name → ¬ InRange r i.package
  else ∃ r, Requirement.parse raw = some r

/-- The variant may be chosen beside the resolved packages. -/
def VariantAdmitted (res : List Info) (vs : List Str) : Prop := ∀ raw ∈ vs, TextAdmits res raw

/-- A requirement text, no conflict, that a resolved package with a version satisfies. -/
def TextMet (res : List Info) (raw : Str) : Prop :=
  raw.head? ≠ some '!' ∧ ∃ r, Requirement.parse raw = some r ∧
    ∃ i ∈ res, i.package.name = r.name ∧ ∃ v, i.package.version = some v ∧ r.satisfiedBy v = true

/-- A requirement text, no conflict, on a family that the request names. -/
def TextRequested (reqs : List Requirement) (raw : Str) : Prop :=
  raw.head? ≠ some '!' ∧ ∃ r, Requirement.parse raw = some r ∧ ∃ o ∈ reqs, o.name = r.name

open Classical in
/-- How many texts of the variant are met, are on a requested family, and are requirements at all. -/
noncomputable def variantMerit (reqs : List Requirement) (res : List Info) (vs : List Str) : Nat × Nat × Nat :=
  (vs.countP fun raw => decide (TextMet res raw), vs.countP fun raw => decide (TextRequested reqs raw),
    vs.countP fun raw => decide (raw.head? ≠ some '!'))

/-- More texts met; if equally many, more on requested families; if equally many, fewer requirements. -/
def Preferred (a b : Nat × Nat × Nat) : Prop :=
  b.1 < a.1 ∨ (b.1 = a.1 ∧ (b.2.1 < a.2.1 ∨ (b.2.1 = a.2.1 ∧ a.2.2 ≤ b.2.2)))

end Rez.Spec
