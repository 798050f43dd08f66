import Verif.Model.PyVersion
import Verif.Spec.Range
/-!
# Specification vocabulary for versions and ranges as Python objects
-/
namespace Rez.PyVersion.Spec
open Rez

/-- The text is these pieces, with points between them. -/
def Pieces (s : Str) (parts : List Str) : Prop := parts ≠ [] ∧ (∀ p ∈ parts, '.' ∉ p) ∧ s = joinWith c!"." parts

/-- The text ends with a number that is all there is after the last point, if there is one. -/
def EndsWith (s pre digits : Str) : Prop :=
  s = pre ++ digits ∧ (pre = [] ∨ pre.getLast? = some '.') ∧ digits ≠ [] ∧ ∀ c ∈ digits, isDigit c = true

/-- The ranges that a Python program can make. -/
inductive Made : VersionRange → Prop
  | any : Made .any
  | none : Made .none
  | new {s r} : range s = some r → Made r
  | intersect {a b r} : Made a → Made b → a.intersect b = some r → Made r
  | subtract {a b r} : Made a → Made b → a.subtract b = some r → Made r
  | union {a b r} : Made a → Made b → union a b = some r → Made r

end Rez.PyVersion.Spec
