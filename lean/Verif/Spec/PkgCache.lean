import Verif.Model.PkgCache
import Verif.Spec.PackageFiles
/-!
# What the command for the package cache promises
-/
namespace Rez.PkgCache.Spec
open Rez Rez.Files

/-- The file with this name in `pending` asks for a directory: an underscore stands for a slash. -/
def Wants (dir : Path) (n : Str) (p : Path) : Prop :=
  ∃ s, s ≠ [] ∧ n = s ++ c!".pending" ∧ p = join dir (s.map fun c => if c = '_' then '/' else c)

/-- Where the file is. -/
def requestAt (dir : Path) (n : Str) : Path := dir ++ [c!"pending", n]

/-- The name asks for a place in the cache: no part of it is empty or leads up. -/
def Inside (n : Str) : Prop :=
  ∃ parts : List Str, parts ≠ [] ∧ (∀ x ∈ parts, Rez.Spec.Files.Component x ∧ '_' ∉ x) ∧ n = joinWith c!"_" parts ++ c!".pending"

/-- Nothing is in the way of the directory, and it may be made as far as it is not there. -/
def Makeable (h : Host) (fs : FS) (p : Path) : Prop :=
  ∀ q, q <+: p → mget fs q = some .dir ∨ mget fs q = none ∧ h.denied q = false

/-- Nothing is in it. -/
def Empty (fs : FS) (p : Path) : Prop := mget fs p = some .dir ∧ ∀ r, r ≠ [] → mget fs (p ++ r) = none

/-- A table of what is cached: a package, a version, and a variant if the version has any. -/
def Cached (fs : FS) (dir : Path) (r : Row) : Prop :=
  ∃ k v, mget fs (dir ++ [k]) = some .dir ∧ mget fs (dir ++ [k, v]) = some .dir ∧ r.package = k ∧
    ((∀ x, mget fs (dir ++ [k, v, x]) ≠ some .dir) ∧ r.path = dir ++ [k, v] ∧ r.uri = k ++ c!"-" ++ v ∨
      ∃ x, mget fs (dir ++ [k, v, x]) = some .dir ∧ r.path = dir ++ [k, v, x] ∧ r.uri = k ++ c!"-" ++ v ++ c!"/" ++ x)

/-- What the table shows of an entry in a column. -/
def Shows (r : Row) (column : Str) (value : Str) : Prop :=
  (column = c!"status" → value = c!"cached") ∧ (column = c!"package" → value = r.package) ∧
  (column = c!"variant_uri" → value = r.uri) ∧ (column = c!"cache_path" → value = (r.path.map fun c => '/' :: c).flatten) ∧
  (column ∉ [c!"status", c!"package", c!"variant_uri", c!"cache_path"] → value = c!"-")

/-- How a value is written: in full, or its first twelve bytes and three points; and then blanks up to fifteen characters. -/
def Written (value out : Str) : Prop :=
  ∃ t, ((byteLen value ≤ 15 ∧ t = value) ∨ (15 < byteLen value ∧ ∃ p q, value = p ++ q ∧ byteLen p = 12 ∧ t = p ++ c!"...")) ∧
    ∃ n, out = t ++ List.replicate n ' ' ∧ t.length + n = max 15 t.length

end Rez.PkgCache.Spec
