import Verif.Model.ContextDiff
/-!
# What comparing two contexts promises
-/
namespace Rez.ContextDiff.Spec
open Rez Rez.PackageOrder

/-- The list has a version for this name: that of the last package of the name which has one. -/
def Has (ps : List Package) (name : Str) (v : Version) : Prop :=
  ∃ before p after, ps = before ++ p :: after ∧ p.name = name ∧ p.version = some v ∧ ∀ q ∈ after, q.name = name → q.version = none

/-- The list has no version for this name. -/
def Lacks (ps : List Package) (name : Str) : Prop := ∀ p ∈ ps, p.name = name → p.version = none

/-- What an entry says of the two lists. -/
def Says (old new : List Package) (d : Entry) : Prop :=
  match d.kind with
  | .added => Lacks old d.name ∧ ∃ w, Has new d.name w ∧ d.old = none ∧ d.new = some w.repr
  | .removed => Lacks new d.name ∧ ∃ v, Has old d.name v ∧ d.old = some v.repr ∧ d.new = none
  | .upgraded => ∃ v w, Has old d.name v ∧ Has new d.name w ∧ d.old = some v.repr ∧ d.new = some w.repr ∧ v.repr ≠ w.repr ∧ w.cmp v = .gt
  | .downgraded => ∃ v w, Has old d.name v ∧ Has new d.name w ∧ d.old = some v.repr ∧ d.new = some w.repr ∧ v.repr ≠ w.repr ∧ w.cmp v ≠ .gt
  | .unchanged => ∃ v w, Has old d.name v ∧ Has new d.name w ∧ d.old = some v.repr ∧ d.new = some w.repr ∧ v.repr = w.repr

/-- The texts of the versions are the same. -/
def SameTexts (old new : List Package) : Prop :=
  ∀ n t, (∃ v, Has old n v ∧ v.repr = t) ↔ ∃ w, Has new n w ∧ w.repr = t

/-- The texts that the entries give for a name on the new side, if what is not told is taken from the old side. -/
def applied (old : Str → Option Str) (ds : List Entry) (n : Str) : Option Str :=
  match ds.find? fun d => d.name == n with
  | some d => d.new
  | none => old n

/-- Entries of the kinds in this order, of a kind by name. -/
def Before (a b : Entry) : Prop :=
  let place : Kind → Nat := fun k => [Kind.added, .removed, .upgraded, .downgraded, .unchanged].idxOf k
  place a.kind < place b.kind ∨ a.kind = b.kind ∧ cmpStr a.name b.name = .lt

end Rez.ContextDiff.Spec
