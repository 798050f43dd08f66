import Verif.Model.Resources
/-!
# Specification vocabulary for resources and their handles
-/
namespace Rez.Spec.Resources
open Rez Rez.Resources

/-- The variables are a map: no name has two values. -/
def IsMap (h : Handle) : Prop := (mkeys h.vars).Nodup

/-- The requirements of a variant that can be read, in order. -/
def Readable (texts : List Str) (rs : List PackageRequirement) : Prop :=
  rs.map Outcome.ok = (texts.map PackageRequirement.parse).filter fun o => match o with | .ok _ => true | _ => false

end Rez.Spec.Resources
