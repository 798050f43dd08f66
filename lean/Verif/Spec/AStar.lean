import Verif.Model.AStar
/-!
# What the A* search should return
-/
namespace Rez.Spec
open Rez

/-- Packages are listed under their own name. -/
def FindOk (env : AEnv) : Prop := ∀ n ps p, env.find n = some ps → p ∈ ps → p.name = n

/-- A repository lists the package under its name. -/
def AListed (env : AEnv) (p : Package) : Prop := ∃ ps, env.find p.name = some ps ∧ p ∈ ps

/-- The version, if both are given, lies in the range that the requirement states. -/
def InSpec (q : PackageRequirement) (p : Package) : Prop :=
  ∀ spec v, q.spec = some spec → p.version = some v →
    ∃ range, VersionRange.parse spec = some range ∧ range.contains v = true

/-- The requirement holds among the packages. -/
def AHolds (pkgs : List Package) (q : PackageRequirement) : Prop :=
  if q.conflict then ∀ p ∈ pkgs, p.name = q.name → ¬ InSpec q p
  else if q.weak then ∀ p ∈ pkgs, p.name = q.name → InSpec q p
  else ∃ p ∈ pkgs, p.name = q.name ∧ InSpec q p

/-- The requirement is requested or is stated by one of the packages. -/
def Asked (reqs : List PackageRequirement) (pkgs : List Package) (q : PackageRequirement) : Prop :=
  q ∈ reqs ∨ ∃ p ∈ pkgs, ∃ raw ∈ p.requires, PackageRequirement.parse raw = .ok q

/-- The packages of a search state. -/
def chosen (s : SState) : List Package := s.resolved.map Prod.snd

/-- Requirements on one family, of the request or of listed packages, all read as a range, accept the same listed
packages, and none is a conflict. -/
structure Agreeing (env : AEnv) (reqs : List PackageRequirement) : Prop where
  same : ∀ q q', (q ∈ reqs ∨ ∃ p, AListed env p ∧ ∃ raw ∈ p.requires, PackageRequirement.parse raw = .ok q) →
    (q' ∈ reqs ∨ ∃ p, AListed env p ∧ ∃ raw ∈ p.requires, PackageRequirement.parse raw = .ok q') →
    q.name = q'.name → ∀ p, AListed env p → p.name = q.name → InSpec q p → InSpec q' p
  plain : ∀ q, (q ∈ reqs ∨ ∃ p, AListed env p ∧ ∃ raw ∈ p.requires, PackageRequirement.parse raw = .ok q) →
    q.conflict = false ∧ ∀ spec, q.spec = some spec → (VersionRange.parse spec).isSome = true

/-- Packages that fulfil the request: listed, of an acceptable kind, one of each family, and every requirement of the
request or of one of them holds. -/
structure ASolution (env : AEnv) (reqs : List PackageRequirement) (pkgs : List Package) : Prop where
  listed : ∀ p ∈ pkgs, AListed env p
  release : ∀ p ∈ pkgs, ∀ v, p.version = some v → env.allowPrerelease = true ∨ v.isPrerelease = false
  one : (pkgs.map fun p => p.name).Nodup
  holds : ∀ q, Asked reqs pkgs q → AHolds pkgs q

/-- The states that can come up in a search for the request. -/
inductive Reached (env : AEnv) (reqs : List PackageRequirement) : SState → Prop
  | start : Reached env reqs (SState.initial reqs)
  | step {s s' l} : Reached env reqs s → Search.successors env s = .ok l → s' ∈ l → Reached env reqs s'

/-- States that can come up and have the same identity hash hold the same packages and await the same
requirements. -/
def Faithful (env : AEnv) (reqs : List PackageRequirement) : Prop :=
  ∀ x y, Reached env reqs x → Reached env reqs y → Search.hashOf env x = Search.hashOf env y →
    (∀ n, mget x.resolved n = mget y.resolved n) ∧ ∀ q, q ∈ x.pending ↔ q ∈ y.pending

end Rez.Spec
