import Verif.Model.PySuite
import Verif.Spec.Suite
/-!
# Calls from Python as calls on a suite
-/
namespace Rez.Spec.PySuite
open Rez Rez.Suite Rez.PySuite

/-- The calls that change contexts, among those from Python. -/
def ops : List Call → List Spec.Suite.Op
  | [] => []
  | .addContext n r :: cs => .add n r :: ops cs
  | .removeContext n :: cs => .remove n :: ops cs
  | .aliasTool c n t :: cs => .setAlias c n t :: ops cs
  | .hideTool c t :: cs => .hide c t :: ops cs
  | _ :: cs => ops cs

/-- The texts of the modes. -/
def modes : List Str := [c!"error", c!"first", c!"last", c!"prefix"]

/-- The value of the last setting of the kind that `f` picks; `d` if there is none. -/
def lastOf {α : Type} (f : Call → Option α) (d : α) (cs : List Call) : α := ((cs.filterMap f).getLast?).getD d

/-- A mode that is set to one of the four texts, in upper or lower case. -/
def modeSet : Call → Option Str
  | .setMode t => if t.map lowerChar ∈ modes then some (t.map lowerChar) else none
  | _ => none

/-- A description that is set. -/
def descriptionSet : Call → Option (Option Str)
  | .setDescription d => some d
  | _ => none

/-- A path that is saved to. -/
def pathSet : Call → Option (Option Str)
  | .save p => some (some p)
  | _ => none

/-- The call raises. -/
def Raises (alnum : Char → Bool) (y : Yaml) (x : Suite × Fs) (c : Call) (e : Exc) : Prop := PySuite.call alnum y x.1 x.2 c = .error e

end Rez.Spec.PySuite
