import Verif.Model.SuitesCommand
import Verif.Spec.Suite
/-!
# Specification vocabulary for `rez suites`
-/
namespace Rez.Spec.SuitesCommand
open Rez Rez.Suite Rez.SuitesCommand Rez.Spec.Suite

/-- The call of the library that a command stands for. -/
def op : Change → Op
  | .add n r _ _ => .add n r
  | .remove n => .remove n
  | .setAlias c n t => .setAlias c n t
  | .hide c t => .hide c t

/-- YAML reads back what it wrote. -/
def Faithful (y : Yaml) : Prop := ∀ f, y.read (y.write f) = some f

end Rez.Spec.SuitesCommand
