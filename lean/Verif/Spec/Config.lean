import Verif.Model.Config
/-!
# Specification vocabulary for configuration
-/
namespace Rez.Spec.Config
open Rez Rez.Config

/-- The value is an object, so that a key can go further down. -/
def IsObj : Json → Prop
  | .obj _ => True
  | _ => False

/-- The value that a tree holds at a path of field names. -/
def at_ : Json → List Str → Option Json
  | j, [] => some j
  | .obj m, k :: ks => (mget m k).bind fun v => at_ v ks
  | _, _ :: _ => none

/-- Every object in the tree has distinct field names. -/
def Unique (j : Json) : Prop := ∀ path m, at_ j path = some (.obj m) → (mkeys m).Nodup

/-- A layer says nothing about a path: it has no value there, and none but objects on the way. -/
def Silent (j : Json) (path : List Str) : Prop :=
  at_ j path = none ∧ ∀ q, q <+: path → ∀ x, at_ j q = some x → IsObj x

/-- What can be read at a path: nothing, an object, or a plain value. -/
inductive Seen where
  | nothing
  | object
  | plain (j : Json)

def seen (j : Json) (path : List Str) : Seen :=
  match at_ j path with
  | none => .nothing
  | some (.obj _) => .object
  | some v => .plain v

/-- Two paths of which neither leads through the other. -/
def Apart (p q : List Str) : Prop := ¬ p <+: q ∧ ¬ q <+: p

/-- A parent that can take a field: it is missing or an object. -/
def Open (j : Json) (parent : List Str) : Prop := ∀ x, at_ j parent = some x → IsObj x

end Rez.Spec.Config
