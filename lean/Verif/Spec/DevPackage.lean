import Verif.Model.DevPackage
/-!
# What is loaded from a working directory
-/
namespace Rez.Spec.DevPackage
open Rez Rez.Serial Rez.DevPackage

/-- The directory has a file of this name. -/
def Has (d : Disk) (dir : List Str) (name : Str) : Prop := ∃ content, d (dir ++ [name]) = some (.file content)

/-- The package that the file of this name gives, if it is read in this format. -/
def Gives (c : Codecs) (alnum : Char → Bool) (d : Disk) (dir : List Str) (name : Str) (f : Format) (p : Pkg) : Prop :=
  ∃ content, d (dir ++ [name]) = some (.file (some content)) ∧ loadText c alnum content f = .ok p

end Rez.Spec.DevPackage
