import Verif.Model.SelfUpdate
/-!
# Specification: what may replace the program

Written from the English description: a release publishes a list of checksums, one line for each archive with the checksum and the
name.  An archive is trusted if its checksum is the one of its line.
-/
namespace Rez.SelfUpdate.Spec
open Rez Rez.SelfUpdate

/-- The line is about the archive: its second word is the name. -/
def About (name line : Str) : Prop := (splitWs line)[1]? = some name

/-- `h` is the checksum the list gives for `name`: the first line about it has two words, and the first one is 64 hexadecimal digits
that are `h` in lower case. -/
def Listed (lines : List Str) (name h : Str) : Prop :=
  ∃ before line after hash, lines = before ++ line :: after ∧ (∀ l ∈ before, ¬About name l) ∧ splitWs line = [hash, name] ∧
    hash.length = 64 ∧ (∀ c ∈ hash, c ∈ c!"0123456789abcdefABCDEF") ∧ h = hash.map lowerAscii

/-- The archive of the release that its checksum vouches for. -/
def Trusted {B : Type} (e : Env B) (version target : Str) (b : B) : Prop :=
  e.archive version (archiveName target) = some b ∧
    ∃ text, e.sums version = some text ∧ Listed (linesOf text) (archiveName target) (e.sha b)

/-- A file of the name of the program. -/
def Program (p : Path) : Prop := ∃ dir, p = dir ++ [c!"rez-next"] ∨ p = dir ++ [c!"rez-next.exe"]

/-- An update to this version is asked for. -/
def Wanted {B : Type} (e : Env B) (a : Args) (version : Str) : Prop :=
  targetVersion e a = some version ∧ a.check = false ∧ (version ≠ e.current ∨ a.force = true)

end Rez.SelfUpdate.Spec
