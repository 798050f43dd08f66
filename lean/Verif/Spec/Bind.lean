import Verif.Model.Bind
import Verif.Spec.PackageFiles
import Verif.Spec.Serialization
/-!
# What binding a tool promises
-/
namespace Rez.Bind.Spec
open Rez Rez.Files Rez.Bind Rez.Spec.Files

/-- A number: digits, one at least. -/
def Number (s : Str) : Prop := s ≠ [] ∧ ∀ c ∈ s, isDigit c = true

/-- Numbers, two at least, with points between them. -/
def Dotted (s : Str) : Prop := ∃ l, 2 ≤ l.length ∧ (∀ d ∈ l, Number d) ∧ s = joinWith c!"." l

/-- No digit, point and digit in a row. -/
def Undotted (s : Str) : Prop := ∀ a b c d, s = a ++ c :: '.' :: d :: b → ¬ (isDigit c = true ∧ isDigit d = true)

/-- Part of a word: a letter, a digit or `_`. -/
def InWord (c : Char) : Prop := isAlpha c = true ∨ isDigit c = true ∨ c = '_'

/-- A separator of a version. -/
def Separator (c : Char) : Prop := c = '.' ∨ c = '-' ∨ c = '_'

/-- What comes first in a text as digits and separators: the version that it begins with, after what has no digits. -/
structure First (s v : Str) : Prop where
  split : ∃ pre seps rest, s = pre ++ v ++ seps ++ rest ∧ (∀ c ∈ pre, isDigit c = false) ∧ (∀ c ∈ seps, Separator c) ∧
    ∀ c, rest.head? = some c → ¬ (isDigit c = true ∨ Separator c)
  head : ∃ c, v.head? = some c ∧ isDigit c = true
  last : ∃ c, v.getLast? = some c ∧ isDigit c = true
  all : ∀ c ∈ v, isDigit c = true ∨ Separator c

/-- A text that stands for itself between single quotes. -/
def Quotable (s : Str) : Prop := ∀ c ∈ s, c ≠ '\'' ∧ c ≠ '\\' ∧ c ≠ '\n' ∧ c ≠ '\r'

/-- Only what is asked for changes: the file, and directories that were missing on the way to it. -/
def Only (fs fs' : FS) (dir : Path) : Prop :=
  ∀ q, q ≠ dir ++ [c!"package.py"] → mget fs' q = mget fs q ∨ (q <+: dir ∧ mget fs q = none ∧ mget fs' q = some .dir)

/-- What is known of tools: the packages that they need and the commands that they have. -/
def known : List (Str × List Str × List Str) :=
  [(c!"platform", [], []), (c!"arch", [], []), (c!"os", [c!"platform", c!"arch"], []),
   (c!"python", [c!"os"], [c!"python", c!"python3"]), (c!"pip", [c!"python"], [c!"pip", c!"pip3"]), (c!"setuptools", [c!"python"], []),
   (c!"rez", [], []), (c!"cmake", [], [c!"cmake", c!"ctest", c!"cpack"]), (c!"git", [], [c!"git"]),
   (c!"gcc", [], [c!"gcc", c!"g++", c!"cpp"]), (c!"clang", [], [c!"clang", c!"clang++"])]

end Rez.Bind.Spec
