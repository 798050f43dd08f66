import Verif.Model.LevelStats
/-!
# What entries of the cache should do
-/
namespace Rez.Spec.LevelStats
open Rez.LevelStats

/-- An entry after accesses at these times. -/
def after {V : Type} (e : Entry V) (times : List Nat) : Entry V := times.foldl (fun e t => (e.access t).2) e

/-- What is assumed of the logarithm: it does not fall. -/
def Grows (ln : Nat → ℚ) : Prop := ∀ a b, a ≤ b → ln a ≤ ln b

end Rez.Spec.LevelStats
