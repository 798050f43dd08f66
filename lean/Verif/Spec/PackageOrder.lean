import Verif.Model.PackageOrder
import Verif.Spec.Resolver
/-!
# Specification vocabulary for package orderers
-/
namespace Rez.Spec
open Rez Rez.PackageOrder

/-- The comparison is a total order on the elements of the list. -/
def Consistent (c : Package → Package → Ordering) (l : List Package) : Prop :=
  (∀ x ∈ l, ∀ y ∈ l, c y x = (c x y).swap) ∧
    ∀ x ∈ l, ∀ y ∈ l, ∀ z ∈ l, c x y ≠ .gt → c y z ≠ .gt → c x z ≠ .gt

/-- What is assumed of the standard library: whatever a sort returns is a rearrangement, it never fails on a
consistent comparison and then returns a sorted list; iterating a map yields its keys in some order. -/
structure SortingOk (s : Sorting) : Prop where
  perm : ∀ c l r, s.sort c l = .ok r → r.Perm l
  noErr : ∀ c l, s.sort c l ≠ .err
  sorted : ∀ c l, Consistent c l → ∃ r, s.sort c l = .ok r ∧ r.Pairwise fun x y => c x y ≠ .gt
  groups : ∀ l, (s.groups l).Perm l

/-- Versions in the requested direction, packages without a version last. -/
def InDirection (descending : Bool) (ps : List Package) : Prop :=
  ps.Pairwise fun p q => (p.version = none → q.version = none) ∧
    ∀ u v, p.version = some u → q.version = some v →
      if descending then u.cmp v ≠ .lt else u.cmp v ≠ .gt

/-- The package has a version and it is at most `v`. -/
def AtMost (v : Version) (p : Package) : Prop := ∃ u, p.version = some u ∧ u.cmp v ≠ .gt

/-- The release time of a package, 0 if unknown. -/
def releaseTime (p : Package) : Int := p.timestamp.getD 0

mutual
/-- No version-split orderer anywhere in the orderer. -/
def SplitFree : Order → Prop
  | .split _ _ => False
  | .perFamily d o => DictSplitFree d ∧ DefaultSplitFree o
  | _ => True
def DictSplitFree : Dict → Prop
  | .nil => True
  | .cons _ o rest => SplitFree o ∧ DictSplitFree rest
def DefaultSplitFree : Default → Prop
  | .none => True
  | .some o => SplitFree o
end

/-- The orderer that a map has for a family. -/
inductive InDict (fam : Str) (o : Order) : Dict → Prop
  | here {rest} : InDict fam o (.cons fam o rest)
  | there {f o' rest} : f ≠ fam → InDict fam o rest → InDict fam o (.cons f o' rest)

/-- The orderer for a family: the one in the map, else the default. -/
def ChosenFor (d : Dict) (dflt : Default) (fam : Str) (o : Order) : Prop :=
  InDict fam o d ∨ ((∀ o', ¬ InDict fam o' d) ∧ dflt = .some o)

/-- The orderer applies to packages of the family. -/
def AppliesTo (o : Order) (fam : Str) : Prop := ∀ l, o.packages = some l → fam ∈ l

end Rez.Spec
