import Verif.Model.Range
/-!
# Versions and ranges as Python objects: `rez-next-python/src/version_bindings.rs`

An exception is `none`.  The comparisons, `contains`, `is_any`, `is_empty`, `intersect`, `intersects`, `subtract`,
`is_subset_of` and `is_superset_of` call the functions of the same name in `Model/Version.lean` and `Model/Range.lean`
(version_bindings.rs:36-58, 177-194, 221-238) and are not repeated.
-/
namespace Rez.PyVersion
open Rez

/-- version_bindings.rs:19-24 `Version(s)`; without an argument the empty version. -/
def new (s : Option Str) : Option Version := Version.parse (s.getD [])

/-- version_bindings.rs:31-33 `__repr__`. -/
def reprText (v : Version) : Str := c!"Version('" ++ v.asStr ++ c!"')"

/-- version_bindings.rs:60-66 `__hash__`, for an arbitrary hash function on strings. -/
def hashWith {H : Type} (h : Str → H) (v : Version) : H := h v.asStr

/-- version_bindings.rs:76-98 `major`, `minor`, `patch`: the pieces 0, 1 and 2 between points. -/
def part (i : Nat) (v : Version) : Option Str := (splitChar '.' v.asStr)[i]?

/-- version_bindings.rs:101-106 `trim`. -/
def trimTo (v : Version) (len : Nat) : Option Version :=
  Version.parse (joinWith c!"." ((splitChar '.' v.asStr).take len))

/-- version_bindings.rs:109-111 `is_empty`. -/
def isEmpty (v : Version) : Bool := v.asStr.isEmpty

/-- version_bindings.rs:121-130: the pieces of the next version.  `n + 1` is a `u64` addition: it wraps in a release build
(and panics in a debug build); the release behaviour is modelled.  There is always a last piece. -/
def nextParts (parts : List Str) : List Str :=
  match parseU64 (parts.getLastD []) with
  | some n => parts.dropLast ++ [decimal ((n + 1) % 2 ^ 64)]
  | none => parts ++ [c!"1"]

/-- version_bindings.rs:114-135 `next`. -/
def next (v : Version) : Option Version := Version.parse (joinWith c!"." (nextParts (splitChar '.' v.asStr)))

/-- version_bindings.rs:149-154 `VersionRange(s)`, and 257-261 `from_str`. -/
def range (s : Option Str) : Option VersionRange := VersionRange.parse (s.getD [])

/-- version_bindings.rs:164-166 `__eq__`. -/
def rangeEq (a b : VersionRange) : Bool := a.rangeStr == b.rangeStr

/-- version_bindings.rs:168-174 `__hash__`. -/
def rangeHashWith {H : Type} (h : Str → H) (r : VersionRange) : H := h r.rangeStr

/-- version_bindings.rs:197-218 `union`. -/
def union (a b : VersionRange) : Option VersionRange :=
  if a.rangeStr.isEmpty || b.rangeStr.isEmpty then VersionRange.parse []
  else if a.rangeStr == b.rangeStr then some a
  else VersionRange.parse (a.rangeStr ++ c!"|" ++ b.rangeStr)

end Rez.PyVersion
