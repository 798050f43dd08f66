import Verif.Model.Search
import Verif.Spec.Repository
/-!
# Specification vocabulary for searching
-/
namespace Rez.Spec.Search
open Rez Rez.Search

/-- Strings in ascending order, none twice. -/
def Ascending (l : List Str) : Prop := l.Pairwise fun a b => cmpStr a b = .lt

/-- `x` is reached from `a` in `k` steps. -/
def Reach (deps : Str → List Str) (a : Str) : Nat → Str → Prop
  | 0, x => x = a
  | k + 1, x => ∃ p, Reach deps a k p ∧ x ∈ deps p

/-- `x` is reached from `a` in `k` steps and in no fewer. -/
def Level (deps : Str → List Str) (a : Str) (k : Nat) (x : Str) : Prop :=
  Reach deps a k x ∧ ∀ j < k, ¬ Reach deps a j x

/-- The packages of a family that can be loaded. -/
def Family.packages (f : Family) : List Descr := f.versions.filterMap id

/-- Some package of the family requires the package `target`: one of its requirements is that name, alone or followed by
a version or an operator. -/
def Requires (f : Family) (build : Bool) (target : Str) : Prop :=
  ∃ i ∈ Family.packages f, ∃ r ∈ i.requires ++ (if build then i.buildRequires else []),
    ∃ rest, r = target ++ rest ∧ (rest = [] ∨ rest.head? ∈ [some '-', some '=', some '<', some '>', some '~', some ' '])

end Rez.Spec.Search
