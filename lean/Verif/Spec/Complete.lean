import Verif.Model.Complete
/-!
# Specification: completion
-/
namespace Rez.Complete.Spec
open Rez Rez.Complete

/-- The part of the line before the cursor, which is `point` bytes from the start or at the end. -/
def Before (line : Str) (point : Nat) (before : Str) : Prop :=
  (∃ after, line = before ++ after ∧ byteLen before = point ∧ after ≠ []) ∨ (byteLen line ≤ point ∧ before = line)

/-- The words of a text: it is these words, each without blanks, set apart by blanks. -/
inductive Words : Str → List Str → Prop
  | nil (b : Str) : (∀ c ∈ b, isWs c = true) → Words b []
  | last (b w : Str) : (∀ c ∈ b, isWs c = true) → w ≠ [] → (∀ c ∈ w, isWs c = false) → Words (b ++ w) [w]
  | cons (b w rest : Str) (s : Char) (l : List Str) : (∀ c ∈ b, isWs c = true) → w ≠ [] → (∀ c ∈ w, isWs c = false) →
      isWs s = true → Words rest l → Words (b ++ w ++ s :: rest) (w :: l)

end Rez.Complete.Spec
