import Verif.Model.PluginsCommand
import Verif.Spec.Repository
/-!
# What the `plugins` command should show
-/
namespace Rez.Spec.PluginsCommand
open Rez

/-- One text is part of another. -/
def Within (part whole : Str) : Prop := ∃ a b, whole = a ++ part ++ b

/-- The words that stand for a build system. -/
def buildWords : List Str :=
  [c!"cmake", c!"make", c!"python", c!"pypi", c!"pip", c!"setuptools", c!"poetry", c!"cargo", c!"npm", c!"yarn"]

/-- The words that stand for a shell. -/
def shellWords : List Str := [c!"bash", c!"zsh", c!"fish", c!"powershell", c!"cmd"]

/-- What the plugins of a package are: name and type. -/
inductive Provides (p : Package) : Str → Str → Prop
  /-- Each tool is a command. -/
  | command (t : Str) (h : t ∈ p.tools) : Provides p t c!"command"
  /-- A tool or a requirement has the word for a build system in it. -/
  | build (w : Str) (h : w ∈ buildWords) (x : Str) (hx : x ∈ p.tools ∨ x ∈ p.requires) (hw : Within w x) :
      Provides p (w ++ c!"_build") c!"build_system"
  /-- A tool has the word for a shell in it. -/
  | shell (t : Str) (h : t ∈ p.tools) (w : Str) (hw : w ∈ shellWords) (hx : Within w t) : Provides p (t ++ c!"_shell") c!"shell"
  /-- The package says in its name that it is a plugin or an extension. -/
  | extension (h : Within c!"plugin" p.name ∨ Within c!"extension" p.name) : Provides p p.name c!"extension"

/-- `p` is a package of these with the highest version; it has none only if no package has one. -/
def Highest (ps : List Package) (p : Package) : Prop :=
  p ∈ ps ∧ ∀ q ∈ ps, (p.version = none → q.version = none) ∧
    ∀ u v, p.version = some u → q.version = some v → u.cmp v ≠ .lt

/-- The types in the order in which they are found. -/
def types : List Str := [c!"command", c!"build_system", c!"shell", c!"extension"]

/-- The texts above the types. -/
def title (t : Str) : Str :=
  if t = c!"command" then c!"COMMAND" else if t = c!"build_system" then c!"BUILD SYSTEM"
  else if t = c!"shell" then c!"SHELL" else c!"EXTENSION"

/-- The plugins of a package, as a list of names and types. -/
structure Lists (p : Package) (l : List (Str × Str)) : Prop where
  /-- Exactly its plugins are listed. -/
  all : ∀ n t, (n, t) ∈ l ↔ Provides p n t
  /-- By type: commands, build systems, shells, the extension. -/
  order : l = types.flatMap fun t => l.filter fun x => x.2 = t
  /-- The commands are the tools, in their order. -/
  commands : (l.filter fun x => x.2 = c!"command").map Prod.fst = p.tools
  /-- The build systems are in the order of the words, and none is listed twice. -/
  builds : ((l.filter fun x => x.2 = c!"build_system").map Prod.fst).Sublist (buildWords.map (· ++ c!"_build"))
  /-- The shells are in the order of the tools. -/
  shells : ((l.filter fun x => x.2 = c!"shell").map Prod.fst).Sublist (p.tools.map (· ++ c!"_shell"))
  /-- There is one extension at most. -/
  extension : (l.filter fun x => x.2 = c!"extension").length ≤ 1

/-- The lines that tell of one plugin. -/
def lines (name : Str) (description version : Option Str) : List Str :=
  (c!"  • " ++ name) :: (description.toList.map (c!"    Description: " ++ ·) ++ version.toList.map (c!"    Version: " ++ ·) ++ [[]])

/-- The lines that tell of the plugins of one type. -/
def section_ (ps : List PluginsCommand.Plugin) (t : Str) : List Str :=
  (c!"🔧 " ++ title t ++ c!" Plugins:") :: List.replicate 40 '-' ::
    (ps.filter fun x => x.type = t).flatMap fun x => lines x.name x.description x.version

end Rez.Spec.PluginsCommand
