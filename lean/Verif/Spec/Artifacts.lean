import Verif.Model.Artifacts
/-!
# Specification: artifacts
-/
namespace Rez.Artifacts.Spec
open Rez Rez.Artifacts

/-- The file is at the path below the node. -/
inductive At : Node → List Str → File → Prop
  | file (f : File) : At (.file f) [] f
  | dir (r : Bool) (s : Nat) (es : List (Str × Node)) (n : Str) (t : Node) (path : List Str) (f : File) :
      (n, t) ∈ es → At t path f → At (.dir r s es) (n :: path) f

/-- Everything below the node can be read. -/
inductive Whole : Node → Prop
  | file (f : File) : Whole (.file f)
  | dir (s : Nat) (es : List (Str × Node)) : (∀ e ∈ es, Whole e.2) → Whole (.dir true s es)

/-- No directory has two entries of one name. -/
inductive Named : Node → Prop
  | file (f : File) : Named (.file f)
  | broken : Named .broken
  | dir (r : Bool) (s : Nat) (es : List (Str × Node)) : (es.map Prod.fst).Nodup → (∀ e ∈ es, Named e.2) → Named (.dir r s es)

/-- One of the three bits for execution is set. -/
def MayExecute (mode : Nat) : Prop := mode.testBit 0 = true ∨ mode.testBit 3 = true ∨ mode.testBit 6 = true

end Rez.Artifacts.Spec
