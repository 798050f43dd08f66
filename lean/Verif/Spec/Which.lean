import Verif.Model.Which
/-!
# Specification: finding programs
-/
namespace Rez.Which.Spec
open Rez Rez.Which

/-- A name below a directory: with one slash between them. -/
def under (dir name : Str) : Str := if dir.getLast? = some '/' then dir ++ name else dir ++ c!"/" ++ name

/-- A command without a path. -/
def Bare (command : Str) : Prop := '/' ∉ command ∧ '\\' ∉ command

/-- The entries of `PATH`. -/
def Entries (s : Sys) (dirs : List Str) : Prop := s.path = some (joinWith c!":" dirs) ∧ dirs ≠ [] ∧ ∀ d ∈ dirs, ':' ∉ d

/-- The nearest of the path and the directories above it that is there. -/
inductive Nearest (fs : Files) : List Str → List Str → Entry → Prop
  | here (p : List Str) (e : Entry) : fs p = some e → Nearest fs p p e
  | above (n : Str) (p q : List Str) (e : Entry) : fs (n :: p) = none → Nearest fs p q e → Nearest fs (n :: p) q e

/-- It can be written. -/
def canWrite : Entry → Bool
  | .file _ w => w
  | .dir w => w

end Rez.Which.Spec
