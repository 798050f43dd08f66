import Verif.Model.ContextCommand
/-!
# Specification vocabulary for `rez context`
-/
namespace Rez.Spec.ContextCommand
open Rez Rez.Context Rez.ContextCommand

/-- The tool `t` is found at `path`: in the last package that has it. -/
def Provides (ps : List Resolved) (t path : Str) : Prop :=
  ∃ before r after, ps = before ++ r :: after ∧ t ∈ r.pkg.tools ∧ (∀ q ∈ after, t ∉ q.pkg.tools) ∧
    path = r.root ++ c!"/bin/" ++ t

/-- The commands of some package have the text `export ` and then the name. -/
def Mentions (ps : List Resolved) (k : Str) : Prop :=
  ∃ r ∈ ps, ∃ text, r.pkg.commands = some text ∧ (c!"export " ++ k) <:+: text

/-- A package has a line `export k=…`. -/
def Exports (lines : Str → List Str) (r : Resolved) (k : Str) : Prop :=
  ∃ text, r.pkg.commands = some text ∧ ∃ l ∈ lines text, ∃ v, trim l = c!"export " ++ k ++ c!"=" ++ v ∧
    '=' ∉ k ∧ ∀ c ∈ k, isWs c = false

/-- `n` is the longest text of letters, digits, `_` and `-` a requirement begins with. -/
def Leading (alnum : Char → Bool) (req n : Str) : Prop :=
  ∃ rest, req = n ++ rest ∧ (∀ c ∈ n, alnum c = true ∨ c = '_' ∨ c = '-') ∧
    ∀ c ∈ rest.head?, alnum c = false ∧ c ≠ '_' ∧ c ≠ '-'

/-- A package that `--prune-package` keeps: the one with that name, and those with a requirement that begins with it. -/
def Kept (prune : Option Str) (r : Resolved) : Prop :=
  ∀ p ∈ prune, r.pkg.name = p ∨ ∃ q ∈ r.pkg.requires, p <+: q

/-- No option at all. -/
def plain : Args := ⟨none, false, false, false, false, false, none, false, false, false, none, none, false, none, false, none, false⟩

/-- An empty world: no files, no variables. -/
def emptyWorld : World :=
  ⟨none, fun _ => none, fun _ => none, [], c!"now", c!"/tmp", fun _ => true, false, fun _ => none, fun _ => none,
    fun _ => none, fun _ => none⟩

end Rez.Spec.ContextCommand
