import Verif.Model.PyComplete
/-!
# Which completion script belongs to which name
-/
namespace Rez.Spec.PyComplete
open Rez Rez.PyComplete

/-- The shells, the names each of them has, and where its completions are read from. -/
def table : List (Script × List Str × Str) :=
  [(.bash, [c!"bash"], c!"~/.bash_completion.d/rez-next"),
   (.zsh, [c!"zsh"], c!"~/.zsh/completions/_rez-next"),
   (.fish, [c!"fish"], c!"~/.config/fish/completions/rez-next.fish"),
   (.powershell, [c!"powershell", c!"pwsh"], c!"~/.config/powershell/Microsoft.PowerShell_profile.ps1")]

/-- The text is a name of the shell, in upper or lower case. -/
def Names (t : Str) (k : Script) : Prop := ∃ ns path n, (k, ns, path) ∈ table ∧ n ∈ ns ∧ t.map lowerChar = n

/-- The path is the one of the shell. -/
def PathOf (k : Script) (path : Str) : Prop := ∃ ns, (k, ns, path) ∈ table

/-- The shell of a script among those that activation scripts are written for. -/
def activation : Script → RexShell.Shell
  | .bash => .bash
  | .zsh => .zsh
  | .fish => .fish
  | .powershell => .powershell

end Rez.Spec.PyComplete
