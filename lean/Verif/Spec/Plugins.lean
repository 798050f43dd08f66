import Verif.Model.Plugins
/-!
# What plugins and built-in hooks should do
-/
namespace Rez.Spec.Plugins
open Rez Rez.Plugins

/-- A manager after these plugins were registered. -/
def after (ps : List Plugin) : Manager := ps.foldl Manager.register Manager.new

/-- The names of the shells that rez knows. -/
def shellNames : List Str :=
  [c!"bash", c!"zsh", c!"fish", c!"sh", c!"cmd", c!"powershell", c!"pwsh", c!"csh", c!"tcsh"]

/-- The names of the build systems. -/
def buildNames : List Str :=
  [c!"cmake", c!"make", c!"python_rezbuild", c!"python", c!"cargo", c!"nodejs", c!"custom_script"]

/-- What happens to a registry: others register their hooks, or the built-in hooks are registered. -/
inductive Step where
  | other (name : Str) (factory : Str → Option Hook)
  | init

/-- A registry after these steps. -/
def run (o : Outside) (steps : List Step) : Lists.Registry Hook :=
  steps.foldl (fun r s => match s with
    | .other n f => r.register n f
    | .init => Plugins.init o r) []

/-- The names of the built-in hooks. -/
def hookNames : List Str := [c!"noop", c!"logging", c!"email", c!"webhook"]

/-- The texts in ascending order, each once. -/
def Ascending (l : List Str) : Prop := l.Pairwise fun a b => cmpStr a b = .lt

end Rez.Spec.Plugins
