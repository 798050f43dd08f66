import Verif.Base.Text
/-!
# Base-26 numerals
-/
namespace Rez.Spec.Base26
open Rez

/-- A non-empty text of letters `a` to `z`. -/
def IsName (s : Str) : Prop := s ≠ [] ∧ ∀ c ∈ s, 'a' ≤ c ∧ c ≤ 'z'

/-- The number a name stands for: `a` is 1, `z` is 26, `aa` is 27, and so on. -/
def value (s : Str) : Nat := s.foldl (fun n c => 26 * n + (c.toNat - 96)) 0

end Rez.Spec.Base26
