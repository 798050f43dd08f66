import Verif.Model.Bundle
import Verif.Spec.BuildCopy
import Verif.Spec.Shell
/-!
# What a bundle promises
-/
namespace Rez.Bundle.Spec
open Rez Rez.Files Rez.Bundle Rez.Spec.Files

/-- A text that is a path: it has a slash, or starts with a letter and a colon and has three bytes or more. -/
def IsPath (s : Str) : Prop := '/' ∈ s ∨ '\\' ∈ s ∨ ∃ c r, s = c :: ':' :: r ∧ 3 ≤ byteLen s

/-- A package of a repository: it has a name and a version that are names of directories. -/
structure Plain (p : Pkg) : Prop where
  name : Component p.name
  version : ∃ v, p.version = some v ∧ Component v

/-- The directory of a package in a repository. -/
def Source (fs : FS) (paths : List Path) (p : Pkg) (v : Str) (src : Path) : Prop :=
  ∃ pre b post, paths = pre ++ b :: post ∧ src = b ++ [p.name, v] ∧ mget fs src = some .dir ∧
    ∀ c ∈ pre, mget fs (c ++ [p.name, v]) = none

/-- Only directories and files. -/
def OnlyFiles (fs : FS) (d : Path) : Prop := ∀ r e, mget fs (d ++ r) = some e → e = .dir ∨ ∃ c, e = .file c

/-- A plain scalar of YAML 1.2 (core schema): digits with a point are a number, given here without the zeros at its end. -/
inductive Scalar where
  | number (whole fraction : Str)
  | text (s : Str)
deriving DecidableEq

/-- The reading of a plain scalar. -/
def scalar (s : Str) : Scalar :=
  if '.' ∈ s then
    let a := s.takeWhile (· != '.')
    let b := (s.dropWhile (· != '.')).drop 1
    if a ≠ [] ∧ a.all isDigit ∧ b.all isDigit then .number a (b.reverse.dropWhile (· == '0')).reverse else .text s
  else if s ≠ [] ∧ s.all isDigit then .number s [] else .text s

end Rez.Bundle.Spec
