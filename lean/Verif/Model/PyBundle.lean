import Verif.Model.Serialization
import Verif.Model.Search
/-!
# Bundles from Python: `rez-next-python/src/bundle_functions.rs`

Parameters: which directories can be written, and what is in the directory that is listed.  Left out: that a file is in no UTF-8, the
classes of errors, and that two spellings of a path are one.
-/
namespace Rez.PyBundle
open Rez

/-- The manifests that there are, by directory, and the directories that cannot be written. -/
structure World where
  manifests : List (Str × Str)
  locked : List Str

/-- bundle_functions.rs:26-34: the text of the manifest. -/
def manifest (packages : List Str) (skipSolve : Bool) : Str :=
  c!"# rez bundle manifest\npackages:\n" ++ joinWith c!"\n" (packages.map fun p => c!"  - " ++ p) ++ c!"\nskip_solve: " ++
    Serial.flagText skipSolve ++ c!"\n"

/-- bundle_functions.rs:13-39 `bundle_context`: the directory, if it can be written. -/
def bundle (w : World) (packages : List Str) (dest : Str) (skipSolve : Bool) : World × Option Str :=
  if w.locked.contains dest then (w, none)
  else ({ w with manifests := mset w.manifests dest (manifest packages skipSolve) }, some dest)

/-- bundle_functions.rs:70-84: one line; the flag tells whether the list is being read. -/
def step (s : Bool × List Str) (line : Str) : Bool × List Str :=
  let trimmed := trim line
  if trimmed = c!"packages:" then (true, s.2)
  else if s.1 then
    if (c!"- ").isPrefixOf trimmed then (true, s.2 ++ [trimmed.drop 2])
    else if !trimmed.isEmpty && !(c!" ").isPrefixOf trimmed && !(c!"-").isPrefixOf trimmed then (false, s.2)
    else s
  else s

/-- bundle_functions.rs:64-87: the packages in a manifest. -/
def readManifest (text : Str) : List Str := ((Serial.linesOf text).foldl step (false, [])).2

/-- bundle_functions.rs:45-88 `unbundle_context`: `none` if there is no manifest; the directory for packages is not used. -/
def unbundle (w : World) (dir : Str) (_dest : Option Str) : Option (List Str) := (mget w.manifests dir).map readManifest

/-- An entry of a directory: its name if this is a text, whether it is a directory, and whether it has a manifest. -/
structure Entry where
  name : Option Str
  dir : Bool
  manifest : Bool

/-- bundle_functions.rs:94-121 `list_bundles`; `base` is what is in the directory, if it is there; a directory that cannot be read is
empty. -/
def list (base : Option (List Entry)) : List Str :=
  match base with
  | none => []
  | some es => Search.sortStr (es.filterMap fun e => if e.dir && e.manifest then e.name else none)

end Rez.PyBundle
