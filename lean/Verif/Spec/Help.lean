import Verif.Model.Help
import Verif.Spec.PackageQuery
/-!
# Specification vocabulary for the help of packages
-/
namespace Rez.Help.Spec
open Rez Rez.Help Rez.Serial Rez.Spec.Repository

/-- What is assumed of `sort_by`: whatever it returns is a rearrangement, and on a comparison that is a total order it does not
panic and returns a sorted list. -/
structure Sorts (sort : (Pkg → Pkg → Ordering) → List Pkg → Outcome (List Pkg)) : Prop where
  perm : ∀ c l r, sort c l = .ok r → r.Perm l
  sorted : ∀ c l, (∀ x ∈ l, ∀ y ∈ l, c y x = (c x y).swap) →
    (∀ x ∈ l, ∀ y ∈ l, ∀ z ∈ l, c x y ≠ .gt → c y z ≠ .gt → c x z ≠ .gt) →
    ∃ r, sort c l = .ok r ∧ r.Pairwise fun x y => c x y ≠ .gt

/-- The versions can be put in an order. -/
def Ordered (ps : List Pkg) : Prop :=
  ∀ p ∈ ps, ∀ q ∈ ps, ∀ r ∈ ps, ∀ u v w, p.version = some u → q.version = some v → r.version = some w →
    u.cmp v ≠ .gt → v.cmp w ≠ .gt → u.cmp w ≠ .gt

/-- A package that can answer: of that name, with a version in the range if there is one, and with a help text. -/
def Answers (name : Str) (range : Option VersionRange) (p : Pkg) (help : Str) : Prop :=
  p.name = name ∧ (∀ r, range = some r → ∃ v, p.version = some v ∧ r.contains v = true) ∧ p.help = some help

/-- `q` does not come before `p`: a package with a version comes before one without, and a greater version before a smaller. -/
def NotAbove (q p : Pkg) : Prop :=
  (p.version = none → q.version = none) ∧ ∀ u v, p.version = some u → q.version = some v → u.cmp v ≠ .lt

/-! ## Addresses -/

/-- An address is made of texts and of places to fill in. -/
inductive Piece where
  | text (s : Str)
  | base
  | root
  | version

/-- As it is written in the package. -/
def Piece.written : Piece → Str
  | .text s => s
  | .base => c!"$BASE"
  | .root => c!"$ROOT"
  | .version => c!"$VERSION"

/-- As it is meant. -/
def Piece.meant (base version : Str) : Piece → Str
  | .text s => s
  | .base => base
  | .root => base
  | .version => version

/-- No text among the pieces has a dollar sign. -/
def Tidy (l : List Piece) : Prop := ∀ s, Piece.text s ∈ l → '$' ∉ s

/-! ## The command -/

/-- Where `rez pkg-help` looks. -/
def places (a : Args) : List Str := if a.paths = [] then [c!"./local_packages"] else a.paths

/-- The packages of that name in those places. -/
def inPlaces (m : Machine) (a : Args) (name : Str) : List Package :=
  (places a).flatMap fun d => match m.world.dir d with | some root => ofFamily root name | none => []

/-- There is a repository at each place, and everything in it can be read. -/
def AllThere (m : Machine) (a : Args) : Prop := ∀ d ∈ places a, ∃ root, m.world.dir d = some root ∧ Sound root

/-- The lines before the help itself, with `--verbose`. -/
def intro (a : Args) (name : Str) (p : Pkg) : Str :=
  if a.verbose then
    c!"📚 Rez Help - Displaying help information...\nSearching for help in package: " ++ name ++ c!"\nFound package: " ++ p.name ++ c!"\n" ++
      (match p.version with | some v => c!"Version: " ++ v.asStr ++ c!"\n" | none => [])
  else []

/-- What is known of a package, with names. -/
def facts (p : Pkg) : List (Str × Str) :=
  [(c!"Package", p.name)] ++ (match p.version with | some v => [(c!"Version", v.asStr)] | none => []) ++
  (if p.authors = [] then [] else [(c!"Authors", joinWith c!", " p.authors)]) ++
  (if p.requires = [] then [] else [(c!"Requirements", joinWith c!", " p.requires)]) ++
  (if p.tools = [] then [] else [(c!"Tools", joinWith c!", " p.tools)])

/-- The sections: their numbers, titles and texts.  The first is the description, if there is one. -/
inductive Part (p : Pkg) : Nat → Str → Str → Prop
  | description {d : Str} : p.description = some d → Part p 1 c!"Description" d
  | information {n : Nat} : n = (if p.description = none then 1 else 2) →
      Part p n c!"Package Information" ((facts p).flatMap fun f => f.1 ++ c!": " ++ f.2 ++ c!"\n")
  | usage {n : Nat} : n = (if p.description = none then 2 else 3) →
      Part p n c!"Usage" (c!"To use this package in an environment:\n  rez env " ++ p.name ++ c!"\n\nTo view package details:\n  rez view " ++ p.name)

/-- The head of a section. -/
def heading (p : Pkg) (n : Nat) (title : Str) : Str :=
  c!"Help for: " ++ p.name ++ c!"\n" ++ (match p.version with | some v => c!"Version: " ++ v.asStr ++ c!"\n" | none => []) ++
    c!"\nSection " ++ decimal n ++ c!": " ++ title ++ c!"\n" ++ List.replicate 50 '=' ++ c!"\n\n"

end Rez.Help.Spec
