import Verif.Model.MainArgs
/-!
# What the executable should run
-/
namespace Rez.Spec.MainArgs
open Rez Rez.MainArgs

variable {E B O : Type}

/-- The exit code tells whether what was run succeeded. -/
def Tells (succeeds : Ran E B O → Bool) (out : Ran E B O × Nat) (r : Ran E B O) : Prop :=
  out.1 = r ∧ (out.2 = 0 ↔ succeeds r = true) ∧ (out.2 = 1 ↔ succeeds r = false)

end Rez.Spec.MainArgs
