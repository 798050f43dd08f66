import Verif.Model.Environment
import Verif.Spec.Rex
/-!
# Specification vocabulary for environment generation
-/
namespace Rez.Spec.Environment
open Rez Rez.Rex Rez.Environment Rez.Spec.Rex

/-- The statements of a package in one phase. -/
def own (iter : List (Str × Str) → List (Str × Str)) (text : Pkg → Option Str) (p : Pkg) : Option (List Action) :=
  match text p with
  | none => some []
  | some t => statements iter p t

/-- The statements of one phase: those of each package that has a text for it, in the order of the packages. -/
def phaseStatements (iter : List (Str × Str) → List (Str × Str)) (text : Pkg → Option Str) (pkgs : List Pkg) :
    Option (List Action) :=
  (pkgs.mapM (own iter text)).map List.flatten

/-- The variables every package gets, as statements. -/
def metas (pkgs : List Pkg) : List Action :=
  pkgs.flatMap fun p => .setenv (upper p.name ++ c!"_ROOT") p.root ::
    match p.version with
    | some v => [.setenv (upper p.name ++ c!"_VERSION") v]
    | none => []

/-- `new` has the entries of `old`, each once, in the order in which they first occur. -/
def Firsts (old new : List Str) : Prop :=
  new.Nodup ∧ (∀ x, x ∈ new ↔ x ∈ old) ∧
  ∀ x ∈ old, ∀ y ∈ old, new.idxOf x < new.idxOf y ↔ old.idxOf x < old.idxOf y

/-- PATH, written in any case. -/
def PathLike (k : Str) : Prop := k.map lowerChar = c!"path"

/-- The value of PATH with the tool paths. -/
def withTools (s : Strategy) (tools : List Str) (cur : Option Str) : Option Str :=
  if tools = [] then cur
  else match s with
    | .prepend => some (front (joinWith c!":" tools) c!":" cur)
    | .append => some (behind (joinWith c!":" tools) c!":" cur)
    | .replace => some (joinWith c!":" tools)
    | .noModify => cur

/-- An environment after the reported changes. -/
def patch (d : Diff) (f : Str → Option Str) : Str → Option Str := fun k =>
  if k ∈ d.removed then none
  else ((mget d.added k).or ((mget d.modified k).map Prod.snd)).or (f k)

end Rez.Spec.Environment
