import Verif.Model.Filter
import Verif.Spec.Requirement
/-!
# Specification vocabulary for package filters
-/
namespace Rez.Spec
open Rez

namespace Filter
open Rez.Filter

/-- A call that adds a rule, for a family or (with `none`) for all packages. -/
inductive Add where
  | exclusion (family : Option Str) (r : Rule)
  | inclusion (family : Option Str) (r : Rule)

/-- The filter after a sequence of calls. -/
def build (adds : List Add) : PackageFilter :=
  adds.foldl (fun f a => match a with
    | .exclusion fam r => f.addExclusion fam r
    | .inclusion fam r => f.addInclusion fam r) PackageFilter.new

/-- What it means for a rule to match a package: the pattern matches the name; the version is in the range; the
release time is on the right side. -/
def Matches (p : Package) : Rule → Prop
  | .glob _ f => f p.name = true
  | .regex _ f => f p.name = true
  | .range q => ∃ v c, p.version = some v ∧ q.constraint = some c ∧ c.satisfied v = true
  | .time t false true => ∃ ts, p.timestamp = some ts ∧ ts < t
  | .time t true true => ∃ ts, p.timestamp = some ts ∧ ts ≤ t
  | .time t false false => ∃ ts, p.timestamp = some ts ∧ t < ts
  | .time t true false => ∃ ts, p.timestamp = some ts ∧ t ≤ ts

/-- A rule added for `family` is meant for the package. -/
def Concerns (family : Option Str) (p : Package) : Prop := family = none ∨ family = some p.name

/-- Some exclusion matches and no inclusion does. -/
def FilteredOut (adds : List Add) (p : Package) : Prop :=
  (∃ fam r, Add.exclusion fam r ∈ adds ∧ Concerns fam p ∧ Matches p r) ∧
    ¬ ∃ fam r, Add.inclusion fam r ∈ adds ∧ Concerns fam p ∧ Matches p r

/-- The family of a call. -/
def Add.family : Add → Option Str
  | .exclusion fam _ => fam
  | .inclusion fam _ => fam
/-- The rule of a call. -/
def Add.rule : Add → Rule
  | .exclusion _ r => r
  | .inclusion _ r => r

/-- A rule made by one of the constructors. -/
def Made (e : Engine) : Rule → Prop
  | .glob p f => e.glob p = some f
  | .regex p f => e.regex p = some f
  | .range q => ∃ s, Requirement.parse s = some q
  | .time _ _ _ => True

/-- Rules whose text is read back: patterns, and ranges whose requirement is. -/
def Readable : Rule → Prop
  | .range q => WritableReq q
  | .time _ _ _ => False
  | _ => True

end Filter
end Rez.Spec
