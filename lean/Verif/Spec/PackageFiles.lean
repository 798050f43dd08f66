import Verif.Model.PackageFiles
/-!
# Specification vocabulary for package directories
-/
namespace Rez.Spec.Files
open Rez Rez.Files

/-- The directory `p'` of `fs'` holds exactly what the directory `p` of `fs` holds. -/
def Same (fs : FS) (p : Path) (fs' : FS) (p' : Path) : Prop := ∀ r, mget fs' (p' ++ r) = mget fs (p ++ r)

/-- There is nothing at `p` or below it. -/
def Gone (fs : FS) (p : Path) : Prop := ∀ r, mget fs (p ++ r) = none

/-- Neither directory is in the other. -/
def Apart (p q : Path) : Prop := ¬ p <+: q ∧ ¬ q <+: p

/-- A file system: one entry per path, and every entry is in directories. -/
structure Ok (fs : FS) : Prop where
  nodup : (mkeys fs).Nodup
  parents : ∀ p q, q <+: p → q ≠ p → (mget fs p).isSome → mget fs q = some .dir

/-- The system lists every entry once. -/
def Lists (order : Order) : Prop := ∀ l, (order l).Perm l

/-- A name or version that is one component of a path. -/
structure Component (s : Str) : Prop where
  filled : s ≠ []
  slash : '/' ∉ s
  dots : s ≠ c!"." ∧ s ≠ c!".."

/-- A file or a link. -/
def Entry.isFile : Entry → Bool
  | .file _ => true
  | .link _ => true
  | _ => false

/-- The bytes of an entry. -/
def Entry.bytes : Entry → Nat
  | .file c => byteLen c
  | _ => 0

/-- The operation can be stopped after the steps `pre`. -/
def Stops (steps pre : List Step) : Prop := pre <+: steps

end Rez.Spec.Files
