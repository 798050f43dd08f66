import Verif.Model.Pip
import Verif.Spec.BuildCopy
import Verif.Spec.Serialization
/-!
# What making packages with pip promises
-/
namespace Rez.Pip.Spec
open Rez Rez.Files Rez.Pip Rez.Spec.Files

/-- The operators of a pip specification. -/
def comparisons : List Str := [c!"==", c!">=", c!"<=", c!"!=", c!"~=", c!">", c!"<", c!"@"]

/-- A character that operators are made of. -/
def Mark (c : Char) : Prop := c ∈ ['=', '<', '>', '!', '~', '@']

/-- A name as packages have it: lower case (ASCII), `_` for `-`. -/
def packageName (s : Str) : Str := s.map fun c => if c = '-' then '_' else lowerChar c

/-- The lines that begin with `key`, without it, in order. -/
def entries (key : Str) (lines : List Str) : List Str := (lines.filter fun l => key.isPrefixOf l).map fun l => l.drop key.length

/-- The last of them, trimmed; empty if there is none. -/
def lastEntry (key : Str) (lines : List Str) : Str := ((entries key lines).getLast?.map trim).getD []

/-- Pip changes nothing but the temporary directory. -/
structure Fair (w : World) : Prop where
  ok : ∀ fs py args, Ok fs → Ok (w.install fs py args).2
  only : ∀ fs py args q, ¬ w.tmp <+: q → mget (w.install fs py args).2 q = mget fs q

/-- Every package that is found has a name and a version that are parts of paths. -/
def Named (w : World) : Prop :=
  ∀ py fs s i, discover w py fs s = some i → Component (packageName i.name) ∧ Component i.version

/-- A package that is made: its file, and a copy of everything that pip has installed. -/
structure Holds (w : World) (fs : FS) (dir : Path) (i : Info) (fs' : FS) : Prop where
  file : mget fs' (dir ++ [c!"package.py"]) = some (.file (packagePy i))
  copied : ∀ x r, (mget fs (w.tmp ++ x :: r)).isSome = true → mget fs' (dir ++ c!"python" :: x :: r) = mget fs (w.tmp ++ x :: r)

end Rez.Pip.Spec
