import Verif.Model.Diff
import Verif.Spec.Repository
/-!
# What comparing two packages promises
-/
namespace Rez.Diff.Spec
open Rez Rez.Repository Rez.PackageOrder Rez.Spec.Repository

/-- A repository whose files can all be read, and that has seen no others. -/
def Good (srt : Sorting) (repos : List Repo) : Prop := ∀ r ∈ repos, Sound r.1 ∧ UpToDate srt r.1 r.2

/-- All packages of a family. -/
def family (repos : List Repo) (name : Str) : List Package := repos.flatMap fun r => ofFamily r.1 name

/-- The text of the version. -/
def versionText (p : Package) : Option Str := p.version.map (·.repr)

/-- A set made of a list holds its items, each once. -/
structure Sets (l : Library) : Prop where
  set : ∀ x : List Str, (l.set x).Nodup ∧ ∀ s, s ∈ l.set x ↔ s ∈ x
  sets : ∀ x : List (List Str), (l.sets x).Nodup ∧ ∀ s, s ∈ l.sets x ↔ s ∈ x

/-- The list has exactly the items of the first that the second has not, each once. -/
def Lacking {α : Type} (l a b : List α) : Prop := l.Nodup ∧ ∀ x, x ∈ l ↔ x ∈ a ∧ x ∉ b

/-- The two packages do not differ in what is compared. -/
structure Alike (f : Fields) (p q : Package) : Prop where
  description : f.description p = f.description q
  authors : f.authors p = f.authors q
  tools : p.tools = q.tools
  requires : ∀ r, r ∈ p.requires ↔ r ∈ q.requires
  variants : p.variants.length = q.variants.length ∧ ∀ v, v ∈ p.variants ↔ v ∈ q.variants

/-- A comma before the end of an object, outside of texts: no JSON text has one.  `inside` tells whether a text has begun,
`comma` whether a comma was the last sign before. -/
def strayComma : (inside comma : Bool) → Str → Bool
  | _, _, [] => false
  | true, _, '\\' :: _ :: s => strayComma true false s
  | true, _, '"' :: s => strayComma false false s
  | true, _, _ :: s => strayComma true false s
  | false, _, '"' :: s => strayComma true false s
  | false, _, ',' :: s => strayComma false true s
  | false, comma, c :: s => if isWs c then strayComma false comma s else (comma && c == '}') || strayComma false false s

end Rez.Diff.Spec
