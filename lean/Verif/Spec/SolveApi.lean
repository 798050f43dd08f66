import Verif.Model.SolveApi
import Verif.Spec.Requirement
/-!
# Specification vocabulary for asking for packages
-/
namespace Rez.Spec.SolveApi
open Rez Rez.Spec Rez.SolveApi

/-- A request as it usually is written: perhaps `!` or `~`, a name, and perhaps `-` with something behind it; read without the
mark, it asks for a package of that name. -/
def Plain (t : Str) : Prop :=
  ∃ (f : Flag) (name rest : Str) (q : Requirement), t = f.text ++ (name ++ rest) ∧ PkgName name ∧
    (rest = [] ∨ ∃ c r, rest = '-' :: c :: r) ∧ Requirement.parse (name ++ rest) = some q ∧ q.name = name

/-- Versions as they are written behind a `-`, and the constraint they spell. -/
inductive Dashed : Str → Option VersionConstraint → Prop
  | none : Dashed [] none
  | version (v : Version) : RealVersion v → Dashed (c!"-" ++ v.asStr) (some (.prefixOf v))
  | from_ (v : Version) : RealVersion v → '-' ∉ v.asStr → Dashed (c!"-" ++ v.asStr ++ c!"+") (some (.greaterThanOrEqual v))
  | between (v w : Version) : RealVersion v → RealVersion w →
      Dashed (c!"-" ++ v.asStr ++ c!"+<" ++ w.asStr) (some (.multiple [.greaterThanOrEqual v, .lessThan w]))

/-- The requests as the resolver would read them itself. -/
def Reads : List Str → List Requirement → Prop := List.Forall₂ fun t r => Requirement.parse t = some r

/-- The last element of a list that has a value, and its value. -/
inductive Last {α β : Type} (f : α → Option β) : List α → β → Prop
  | intro (pre : List α) (x : α) (post : List α) (b : β) : f x = some b → (∀ y ∈ post, f y = none) → Last f (pre ++ x :: post) b

/-- A pattern fits a name: `*` stands for any text on one line, `.` for any character but a line break, everything else for
itself. -/
inductive Fits : Str → Str → Prop
  | nil : Fits [] []
  | star {p a s : Str} : '\n' ∉ a → Fits p s → Fits ('*' :: p) (a ++ s)
  | dot {p s : Str} {d : Char} : d ≠ '\n' → Fits p s → Fits ('.' :: p) (d :: s)
  | char {p s : Str} {c : Char} : c ≠ '*' → c ≠ '.' → Fits p s → Fits (c :: p) (c :: s)

/-- What is assumed of `sort_by`: whatever it returns is a rearrangement, and on a comparison that is a total order it does not
panic and returns a sorted list. -/
structure Sorts (sort : (Pkg → Pkg → Ordering) → List Pkg → Outcome (List Pkg)) : Prop where
  perm : ∀ c l r, sort c l = .ok r → r.Perm l
  noErr : ∀ c l, sort c l ≠ .err
  sorted : ∀ c l, (∀ x ∈ l, ∀ y ∈ l, c y x = (c x y).swap) →
    (∀ x ∈ l, ∀ y ∈ l, ∀ z ∈ l, c x y ≠ .gt → c y z ≠ .gt → c x z ≠ .gt) →
    ∃ r, sort c l = .ok r ∧ r.Pairwise fun x y => c x y ≠ .gt

/-- The lines a result is summed up in, after its heading. -/
inductive SummaryLine (verbose : Bool) (a : Answer) : Str → Prop
  | nothing : a.resolved = [] → a.failed = [] → SummaryLine verbose a c!"No packages to resolve."
  | resolvedHead : a.resolved ≠ [] → SummaryLine verbose a (c!"✅ Resolved packages (" ++ decimal a.resolved.length ++ c!"):")
  | requested {e} : e ∈ a.resolved → e.requested = true →
      SummaryLine verbose a (c!"  " ++ e.package.name ++ c!" " ++ e.package.shown ++ c!" (requested)")
  | dependency {e} : e ∈ a.resolved → e.requested = false →
      SummaryLine verbose a (c!"  " ++ e.package.name ++ c!" " ++ e.package.shown ++ c!" (dependency)")
  | requiredBy {e} : verbose = true → e ∈ a.resolved → e.requiredBy ≠ [] →
      SummaryLine verbose a (c!"    Required by: " ++ joinWith c!", " e.requiredBy)
  | failedHead : a.failed ≠ [] → SummaryLine verbose a (c!"\n❌ Failed requirements (" ++ decimal a.failed.length ++ c!"):")
  | failed {r} : r ∈ a.failed → SummaryLine verbose a (c!"  " ++ r.display)
  | conflictHead : (a.resolved ≠ [] ∨ a.failed ≠ []) → a.conflicts ≠ [] →
      SummaryLine verbose a (c!"\n⚠️  Conflicts encountered (" ++ decimal a.conflicts.length ++ c!"):")
  | conflict {c} : (a.resolved ≠ [] ∨ a.failed ≠ []) → c ∈ a.conflicts → SummaryLine verbose a (c!"  Package: " ++ c.name)
  | requirements {c} : (a.resolved ≠ [] ∨ a.failed ≠ []) → c ∈ a.conflicts →
      SummaryLine verbose a (c!"    Conflicting requirements: " ++ joinWith c!", " (c.requirements.map Requirement.display))
  | sources {c} : (a.resolved ≠ [] ∨ a.failed ≠ []) → c ∈ a.conflicts → c.sources ≠ [] →
      SummaryLine verbose a (c!"    Source packages: " ++ joinWith c!", " c.sources)

/-- The lines a resolved package is described in; versions are as they are for debugging. -/
inductive DetailLine (debug : Version → Str) (e : Entry) : Str → Prop
  | name : DetailLine debug e (c!"\n--- " ++ e.package.name ++ c!" ---")
  | version {v} : e.package.version = some v → DetailLine debug e (c!"Version: " ++ debug v)
  | description {d} : e.package.description = some d → DetailLine debug e (c!"Description: " ++ d)
  | requires : e.package.requires ≠ [] → DetailLine debug e (c!"Requires: " ++ joinWith c!", " e.package.requires)
  | tools : e.package.tools ≠ [] → DetailLine debug e (c!"Tools: " ++ joinWith c!", " e.package.tools)
  | satisfies {r} : e.satisfying = some r → DetailLine debug e (c!"Satisfies: " ++ r.display)

/-- How a resolved package is shown. -/
def entryText (e : Entry) : Str :=
  c!"  " ++ e.package.name ++ c!" " ++ e.package.shown ++ (if e.requested = true then c!" (requested)" else c!" (dependency)")

/-- Comparison of versions is transitive among the versions of these packages. -/
def Comparable (ps : List Pkg) : Prop :=
  ∀ p ∈ ps, ∀ q ∈ ps, ∀ r ∈ ps, ∀ u v w, p.version = some u → q.version = some v → r.version = some w →
    u.cmp v ≠ .gt → v.cmp w ≠ .gt → u.cmp w ≠ .gt

end Rez.Spec.SolveApi
