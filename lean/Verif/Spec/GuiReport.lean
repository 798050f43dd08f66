import Verif.Model.GuiReport
/-!
# What the status page should say
-/
namespace Rez.Spec.GuiReport
open Rez Rez.GuiReport

/-- How a browser reads text between tags: the five references stand for a character, all else for itself. -/
def browser : Str → Str
  | '&' :: 'a' :: 'm' :: 'p' :: ';' :: r => '&' :: browser r
  | '&' :: 'l' :: 't' :: ';' :: r => '<' :: browser r
  | '&' :: 'g' :: 't' :: ';' :: r => '>' :: browser r
  | '&' :: 'q' :: 'u' :: 'o' :: 't' :: ';' :: r => '"' :: browser r
  | '&' :: '#' :: '3' :: '9' :: ';' :: r => '\'' :: browser r
  | c :: r => c :: browser r
  | [] => []

/-- A package directory: `repo/name/version`, with the text of its `package.py` if that can be read. -/
def HasPackage (disk : Str → Option (List FamilyEntry)) (repo name version : Str) (content : Option Str) : Prop :=
  ∃ fs vs, disk repo = some fs ∧ (name, some vs) ∈ fs ∧ (version, some content) ∈ vs

/-- What is shown for one package: name, version, repository and description, in this order. -/
def rowTexts (p : PkgInfo) : List Str := [p.name, p.version, p.repo, p.description]

end Rez.Spec.GuiReport
