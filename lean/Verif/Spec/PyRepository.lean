import Verif.Model.PyRepository
import Verif.Spec.Repository
import Verif.Spec.Range
/-!
# What repositories from Python should answer
-/
namespace Rez.Spec.PyRepository
open Rez Rez.Repository

/-- All packages of a family in these directories. -/
def family (rs : List Root) (name : Str) : List Package := rs.flatMap fun r => Spec.Repository.ofFamily r name

/-- The versions of these packages were read from texts. -/
def FromTexts (ps : List Package) : Prop := ∀ p ∈ ps, ∀ v, p.version = some v → Parsed v

end Rez.Spec.PyRepository
