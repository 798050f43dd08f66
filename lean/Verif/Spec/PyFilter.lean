import Verif.Model.PyFilter
import Verif.Spec.RuleFilter
/-!
# What package filters from Python should answer
-/
namespace Rez.Spec.PyFilter
open Rez Rez.RuleFilter Rez.PyFilter

/-- A dictionary describes a package: it has a name; version, description and time are as given, and missing if they are not given. -/
structure Describes (d : Serial.Fields) (p : Pkg) : Prop where
  name : mget d c!"name" = some (.str p.base.name)
  version : (mget d c!"version" = none ∧ p.base.version = none) ∨
    ∃ t v, mget d c!"version" = some (.str t) ∧ Version.parse t = some v ∧ p.base.version = some v
  description : (mget d c!"description" = none ∧ p.description = none) ∨
    ∃ t, mget d c!"description" = some (.str t) ∧ p.description = some t
  timestamp : (mget d c!"timestamp" = none ∧ p.base.timestamp = none) ∨
    ∃ x n, mget d c!"timestamp" = some x ∧ PyPackage.integer 63 x = some n ∧ p.base.timestamp = some n
  nothingElse : p.base.requires = [] ∧ p.base.variants = [] ∧ p.base.tools = []

/-- A rule with this text matches the package. -/
def Matches (e : Engine) (t : Str) (p : Pkg) : Prop := ∃ r, parseRule e t = some r ∧ r.apply e p = true

/-- The package is to be left out: some exclusion matches it and no inclusion does. -/
def LeftOut (e : Engine) (calls : List Call) (p : Pkg) : Prop :=
  (∃ t, Call.exclusion t ∈ calls ∧ Matches e t p) ∧ ¬ ∃ t, Call.inclusion t ∈ calls ∧ Matches e t p

end Rez.Spec.PyFilter
