import Verif.Model.PyCache
/-!
# What a payload cache says to Python (specification)
-/
namespace Rez.PyCache
open Rez.Payload

/-- The name under which Python knows a status. -/
def nameOf : CacheStatus → Str
  | .notFound => c!"NOT_FOUND"
  | .found => c!"FOUND"
  | .created => c!"CREATED"
  | .copying => c!"COPYING"
  | .copyStalled => c!"COPY_STALLED"
  | .pending => c!"PENDING"
  | .removed => c!"REMOVED"
  | .skipped => c!"SKIPPED"

/-- A hash directory is listed without omissions, in some order. -/
def World.Fair {F C : Type} (w : World F C) : Prop := ∀ b x, x ∈ w.scan b ↔ x ∈ mkeys b.metas

/-- The metadata of an entry, when they can be read. -/
def Holds {F C : Type} (c : Cache F C) (p : Place) (inc : Str) (h : Handle.Handle) : Prop :=
  ∃ b t, mget c p = some b ∧ mget b.metas inc = some (.whole h t)

/-- The payload directory of an entry is there. -/
def HasPayload {F C : Type} (c : Cache F C) (p : Place) (inc : Str) : Prop :=
  ∃ b files, mget c p = some b ∧ mget b.payloads inc = some files

/-- The payload of an entry has this file, complete. -/
def HasFile {F C : Type} [DecidableEq F] (c : Cache F C) (p : Place) (inc : Str) (f : F) (x : C) : Prop :=
  ∃ b files, mget c p = some b ∧ mget b.payloads inc = some files ∧ mget files f = some (some x)

end Rez.PyCache
