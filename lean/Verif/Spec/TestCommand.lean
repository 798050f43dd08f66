import Verif.Model.TestCommand
import Verif.Spec.Search
/-!
# What running the tests of a package promises
-/
namespace Rez.Tests.Spec
open Rez

/-- A name matches a pattern: `*` stands for any text in a line, every other character for itself. -/
inductive Glob : Str → Str → Prop where
  | nil : Glob [] []
  | star {u p s : Str} (h : '\n' ∉ u) (rest : Glob p s) : Glob ('*' :: p) (u ++ s)
  | char {c : Char} {p s : Str} (h : c ≠ '*') (rest : Glob p s) : Glob (c :: p) (c :: s)

/-- Characters without a special meaning in regular expressions. -/
def plain (c : Char) : Bool := isTok c || c!"-:/, ".contains c

/-- A regular expression of plain characters, `.` and `.*`, read as a whole. -/
inductive RMatch : Str → Str → Prop where
  | nil : RMatch [] []
  | many {u p s : Str} (h : '\n' ∉ u) (rest : RMatch p s) : RMatch ('.' :: '*' :: p) (u ++ s)
  | any {c : Char} {p s : Str} (hp : p.head? ≠ some '*') (h : c ≠ '\n') (rest : RMatch p s) : RMatch ('.' :: p) (c :: s)
  | lit {c : Char} {p s : Str} (hc : plain c) (rest : RMatch p s) : RMatch (c :: p) (c :: s)

/-- Expressions of this kind. -/
inductive Simple : Str → Prop where
  | nil : Simple []
  | many {p : Str} (h : Simple p) : Simple ('.' :: '*' :: p)
  | any {p : Str} (hp : p.head? ≠ some '*') (h : Simple p) : Simple ('.' :: p)
  | lit {c : Char} {p : Str} (hc : plain c) (h : Simple p) : Simple (c :: p)

/-- What the regular expression library does on these: a text matches if a part of it does, or with anchors the whole. -/
structure RegexOk (regex : Str → Option (Str → Bool)) : Prop where
  part : ∀ e, Simple e → ∃ f, regex e = some f ∧ ∀ s, f s = true ↔ ∃ a b c, s = a ++ b ++ c ∧ RMatch e b
  whole : ∀ e, Simple e → ∃ f, regex (c!"^" ++ e ++ c!"$") = some f ∧ ∀ s, f s = true ↔ RMatch e s

/-- Patterns with a star that have only plain characters besides, and all patterns without one. -/
def Ordinary (p : Str) : Prop := '*' ∈ p → ∀ c ∈ p, c = '*' ∨ plain c

/-- A program ended well. -/
def Passed (x : Option (Option Int)) : Prop := x = some (some 0)

/-- The test `n`, asked for by name or pattern: the first pattern that it matches has the index `i`. -/
def FirstMatch (m : Str → Str → Prop) (patterns : List Str) (i : Nat) (n : Str) : Prop :=
  (∃ p, patterns[i]? = some p ∧ m p n) ∧ ∀ j p, j < i → patterns[j]? = some p → ¬ m p n

/-- The last version of the package in a directory to search, as texts are ordered. -/
def Last (w : World) (a : Args) (s v : Str) : Prop := ∃ l, w.versions s a.package = some l ∧ v ∈ l ∧ ∀ x ∈ l, cmpStr x v ≠ .gt

/-- A directory to search in which there is nothing to test. -/
def Without (w : World) (a : Args) (s : Str) : Prop := ∀ v, Last w a s v → w.packageFile (w.versionDir s a.package v) = none

end Rez.Tests.Spec
