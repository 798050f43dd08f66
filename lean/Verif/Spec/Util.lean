import Verif.Model.Util
/-!
# Specification vocabulary for the text utilities
-/
namespace Rez.Spec.Util
open Rez

/-- An identifier: a letter or underscore, then letters, digits and underscores. -/
def Identifier (alpha alnum : Char → Bool) (s : Str) : Prop :=
  ∃ c cs, s = c :: cs ∧ (alpha c = true ∨ c = '_') ∧ ∀ d ∈ cs, alnum d = true ∨ d = '_'

/-- The units of a duration and their seconds; no unit means seconds. -/
def units : List (Str × Nat) := [([], 1), (c!"s", 1), (c!"m", 60), (c!"h", 3600), (c!"d", 86400)]

/-- The units of an age and their seconds. -/
def ages : List (Str × Nat) :=
  [(c!"seconds", 1), (c!"minutes", 60), (c!"hours", 3600), (c!"days", 86400), (c!"weeks", 604800), (c!"months", 2592000),
   (c!"years", 31536000)]

end Rez.Spec.Util
