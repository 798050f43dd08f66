import Verif.Model.Range
/-!
# Specification vocabulary for version ranges
-/
namespace Rez.Spec
open Rez

/-- The comparison operators of a range constraint. -/
inductive Op where
  | ge | gt | le | lt | eq | ne
deriving DecidableEq

/-- How the operator is written. -/
def Op.text : Op → Str
  | .ge => c!">="
  | .gt => c!">"
  | .le => c!"<="
  | .lt => c!"<"
  | .eq => c!"=="
  | .ne => c!"!="

/-- What the operator says about the order of the tested version relative to the bound. -/
def Op.holds : Op → Ordering → Prop
  | .ge, o => o ≠ .lt
  | .gt, o => o = .gt
  | .le, o => o ≠ .gt
  | .lt, o => o = .lt
  | .eq, o => o = .eq
  | .ne, o => o ≠ .eq

/-- `>=1.0,<2.0|==3`: alternatives separated by `|`, constraints separated by `,`. -/
def renderRange (alts : List (List (Op × Version))) : Str :=
  joinWith c!"|" (alts.map fun cs => joinWith c!"," (cs.map fun c => c.1.text ++ c.2.asStr))

/-- The result of some call of `Version::parse`. -/
def Parsed (v : Version) : Prop := ∃ s, Version.parse s = some v

/-- The ranges that can be obtained through the public constructors and operations, in any order. -/
inductive Built : VersionRange → Prop
  | any : Built .any
  | none : Built .none
  | parse {s r} : VersionRange.parse s = some r → Built r
  | intersect {a b r} : Built a → Built b → a.intersect b = some r → Built r
  | union {a b} : Built a → Built b → Built (a.union b)
  | subtract {a b r} : Built a → Built b → a.subtract b = some r → Built r

/-- The ranges obtained without ever calling `subtract`. -/
inductive BuiltPlain : VersionRange → Prop
  | any : BuiltPlain .any
  | none : BuiltPlain .none
  | parse {s r} : VersionRange.parse s = some r → BuiltPlain r
  | intersect {a b r} : BuiltPlain a → BuiltPlain b → a.intersect b = some r → BuiltPlain r
  | union {a b} : BuiltPlain a → BuiltPlain b → BuiltPlain (a.union b)

/-- The version `u` is written in one of the bounds of `r`. -/
def Mentions (r : VersionRange) (u : Version) : Prop :=
  ∃ bs ∈ r.boundSets, ∃ b ∈ bs, b = .ge u ∨ b = .gt u ∨ b = .le u ∨ b = .lt u ∨ b = .eq u ∨ b = .ne u ∨
    b = .compatible u

/-- `<=` is transitive among the versions of `S`. -/
def TransOn (S : Version → Prop) : Prop :=
  ∀ a b c, S a → S b → S c → a.cmp b ≠ .gt → b.cmp c ≠ .gt → a.cmp c ≠ .gt

/-- `is_any` does not lie about this range. -/
def AnyHonest (r : VersionRange) : Prop := r.isAny = true → ∀ v, r.contains v = true

/-- The constraints contain a lower bound above an upper bound, such as `>=3` and `<2`. -/
def Contradictory (bs : List Bound) : Prop :=
  ∃ l u, (Bound.ge l ∈ bs ∨ Bound.gt l ∈ bs) ∧ (Bound.le u ∈ bs ∨ Bound.lt u ∈ bs) ∧ l.cmp u = .gt

end Rez.Spec
