import Verif.Model.PyBundle
/-!
# What bundles from Python should hold
-/
namespace Rez.Spec.PyBundle
open Rez

/-- A text on one line that is not blank and has no blanks at its end. -/
structure Plain (p : Str) : Prop where
  line : '\n' ∉ p
  last : ∃ c, p.getLast? = some c ∧ isWs c = false

/-- A line, without the blanks around it, that ends the list of packages: something else than an entry, a blank line or the title. -/
def Ends (l : Str) : Prop := trim l ≠ [] ∧ (trim l).head? ≠ some '-' ∧ trim l ≠ c!"packages:"

/-- `p` is listed in these lines: below the title, before a line that ends the list. -/
def Listed (ls : List Str) (p : Str) : Prop :=
  ∃ before title between item after, ls = before ++ title :: between ++ item :: after ∧ trim title = c!"packages:" ∧
    (∀ l ∈ between, ¬ Ends l) ∧ trim item = c!"- " ++ p

end Rez.Spec.PyBundle
