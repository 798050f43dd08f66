import Verif.Model.Source
/-!
# Completion scripts from Python: rez-next-python/src/completion_bindings.rs

The four scripts are constants and are told apart by the shell they are for.  Upper and lower case are those of ASCII letters.
Not on Windows.
-/
namespace Rez.PyComplete
open Rez Rez.Source

/-- completion_bindings.rs:11-95: the four scripts. -/
inductive Script where
  | bash
  | zsh
  | fish
  | powershell
deriving DecidableEq

/-- completion_bindings.rs:107-109, 144-146: the shell that is meant. -/
def shellType (h : Here) (shell : Option Str) : Str := (shell.map lower).getD (detectShell h)

/-- completion_bindings.rs:106-121 `get_completion_script`; `none` is the `ValueError`. -/
def script (h : Here) (shell : Option Str) : Option Script :=
  let s := shellType h shell
  if s = c!"bash" then some .bash
  else if s = c!"zsh" then some .zsh
  else if s = c!"fish" then some .fish
  else if s = c!"powershell" ∨ s = c!"pwsh" ∨ s = c!"ps1" then some .powershell
  else none

/-- completion_bindings.rs:132-139 `supported_completion_shells`. -/
def supported : List Str := [c!"bash", c!"zsh", c!"fish", c!"powershell"]

/-- completion_bindings.rs:143-160 `get_completion_install_path`. -/
def installPath (h : Here) (shell : Option Str) : Option Str :=
  let s := shellType h shell
  if s = c!"bash" then some c!"~/.bash_completion.d/rez-next"
  else if s = c!"zsh" then some c!"~/.zsh/completions/_rez-next"
  else if s = c!"fish" then some c!"~/.config/fish/completions/rez-next.fish"
  else if s = c!"powershell" ∨ s = c!"pwsh" then some c!"~/.config/powershell/Microsoft.PowerShell_profile.ps1"
  else none

end Rez.PyComplete
