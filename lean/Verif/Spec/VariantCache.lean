import Verif.Model.VariantCache
/-!
# What a cache of variants is for
-/
namespace Rez.Spec.VariantCache
open Rez Rez.VariantCache

variable {α : Type}

/-- The call takes away or replaces what is kept for a name. -/
def Ends (n : Str) : Call α → Prop
  | .get _ => False
  | .put m _ => m = n
  | .invalidate m => m = n
  | .clear => True

/-- After these calls the variants put for `n` last are still there. -/
def Kept (calls : List (Call α)) (n : Str) (vs : List α) : Prop :=
  ∃ before after, calls = before ++ .put n vs :: after ∧ ∀ c ∈ after, ¬ Ends n c

/-- The calls since the last `clear`. -/
def Since (calls before since : List (Call α)) : Prop :=
  calls = before ++ since ∧ (before = [] ∨ ∃ b, before = b ++ [.clear]) ∧ .clear ∉ since

/-- The call at place `i` asks for a name that is kept. -/
def Answered (calls : List (Call α)) (i : Nat) : Prop := ∃ n vs, calls[i]? = some (.get n) ∧ Kept (calls.take i) n vs

/-- The call at place `i` asks for a name that is not kept. -/
def Unanswered (calls : List (Call α)) (i : Nat) : Prop := ∃ n, calls[i]? = some (.get n) ∧ ∀ vs, ¬ Kept (calls.take i) n vs

/-- `k` is how many places from `a` on and before `b` have the property. -/
inductive Count (p : Nat → Prop) (a : Nat) : Nat → Nat → Prop where
  | zero : Count p a a 0
  | yes {b k} : Count p a b k → p b → Count p a (b + 1) (k + 1)
  | no {b k} : Count p a b k → ¬ p b → Count p a (b + 1) k

end Rez.Spec.VariantCache
