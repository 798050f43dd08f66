import Verif.Model.Vcs
/-!
# What version control promises
-/
namespace Rez.Vcs.Spec
open Rez Rez.Vcs

/-- A word: something, and no white space in it. -/
def Word (s : Str) : Prop := s ≠ [] ∧ ∀ c ∈ s, isWs c = false

/-- The text of a number with sign. -/
def number (z : Int) : Str := if z < 0 then '-' :: decimal z.natAbs else decimal z.natAbs

/-- A line of text that begins and ends with something that is no white space. -/
structure Line (s : Str) : Prop where
  filled : s ≠ []
  noBreak : '\n' ∉ s
  first : ∀ c, s.head? = some c → isWs c = false
  last : ∀ c, s.getLast? = some c → isWs c = false

/-- What `svn info` prints: a line for each item. -/
def printed (items : List (Str × Str)) : Str := joinWith c!"\n" (items.map fun i => i.1 ++ c!": " ++ i.2)

/-- Items: names without colons, each once, and lines. -/
structure Items (items : List (Str × Str)) : Prop where
  nodup : (items.map (·.1)).Nodup
  names : ∀ i ∈ items, Line i.1 ∧ ':' ∉ i.1
  values : ∀ i ∈ items, Line i.2

end Rez.Vcs.Spec
