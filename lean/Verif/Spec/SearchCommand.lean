import Verif.Model.SearchCommand
/-!
# Specification vocabulary for the search command
-/
namespace Rez.Spec.SearchCommand
open Rez Rez.SearchCommand

/-- The comparison is a total order on the elements of the list. -/
def Consistent (c : Res → Res → Ordering) (l : List Res) : Prop :=
  (∀ x ∈ l, ∀ y ∈ l, c y x = (c x y).swap) ∧
    ∀ x ∈ l, ∀ y ∈ l, ∀ z ∈ l, c x y ≠ .gt → c y z ≠ .gt → c x z ≠ .gt

/-- What is assumed of the standard library: whatever a sort returns is a rearrangement, it never fails on a consistent
comparison and then returns a sorted list in which equal elements keep their order; the values of a map come in some order. -/
structure Std (w : World) : Prop where
  perm : ∀ c l r, w.sort c l = .ok r → r.Perm l
  noErr : ∀ c l, w.sort c l ≠ .err
  sorted : ∀ c l, Consistent c l → ∃ r, w.sort c l = .ok r ∧ (r.Pairwise fun x y => c x y ≠ .gt) ∧
    ∀ x ∈ l, (r.filter fun y => c x y == .eq) = l.filter fun y => c x y == .eq
  values : ∀ m, (w.values m).Perm (m.map (·.2))

/-- Text as it is compared: as it is if case matters, else in lower case. -/
def folded (lower : Str → Str) (caseSensitive : Bool) (s : Str) : Str := if caseSensitive then s else lower s

/-- The query occurs in the text. -/
def Occurs (w : World) (a : Args) (text : Str) : Prop :=
  folded w.lower a.caseSensitive a.query <:+: folded w.lower a.caseSensitive text

/-- No field is asked for. -/
def NoField (a : Args) : Prop := a.description = false ∧ a.tools = false ∧ a.requirements = false

/-- The texts of a package that are searched, with the field they are in: always the name; description, tools and requirements
if asked for; description and tools too if nothing is asked for. -/
inductive Looked (a : Args) (p : Pkg) : Str → Str → Prop
  | name : Looked a p c!"name" p.name
  | description {d} : a.description = true ∨ NoField a → p.description = some d → Looked a p c!"description" d
  | tools {t} : a.tools = true ∨ NoField a → t ∈ p.tools → Looked a p c!"tools" t
  | requirements {r} : a.requirements = true → r ∈ p.requires → Looked a p c!"requirements" r

/-- The package matches the query. -/
def Matches (w : World) (a : Args) (p : Pkg) : Prop := ∃ f t, Looked a p f t ∧ Occurs w a t

open Classical in
/-- What a match is worth: 10 for the name, 5 for a part of it; 3, 2 and 1 for description, tools and requirements if asked for;
2 and 1 for description and tools if nothing is asked for. -/
noncomputable def points (w : World) (a : Args) (p : Pkg) : Nat :=
  (if folded w.lower a.caseSensitive p.name = folded w.lower a.caseSensitive a.query then 10
    else if Occurs w a p.name then 5 else 0) +
  (if ∃ d, p.description = some d ∧ Occurs w a d then (if a.description then 3 else if NoField a then 2 else 0) else 0) +
  (if ∃ t ∈ p.tools, Occurs w a t then (if a.tools then 2 else if NoField a then 1 else 0) else 0) +
  (if ∃ r ∈ p.requires, Occurs w a r then (if a.requirements then 1 else 0) else 0)

/-- The time a date option stands for, if it can be read. -/
def Date (w : World) (o : Option Str) (t : Int) : Prop :=
  ∃ s, o = some s ∧ Commands.timestamp w.iso w.checks w.now s = .ok (some t)

/-- When the package was released, 0 if that is unknown. -/
def released (p : Pkg) : Int := p.timestamp.getD 0

/-- The package is newer and older than the dates that are given and can be read. -/
def InTime (w : World) (a : Args) (p : Pkg) : Prop :=
  (∀ t, Date w a.newerThan t → t < released p) ∧ ∀ t, Date w a.olderThan t → released p < t

/-- The package has a variant with a requirement in which the text occurs, in any case. -/
def HasVariant (w : World) (p : Pkg) (text : Str) : Prop :=
  ∃ v ∈ p.variants, ∃ r ∈ v, w.lower text <:+: w.lower r

/-- The package is of the kind that is searched for. -/
def InType (w : World) (a : Args) (p : Pkg) : Prop :=
  (a.searchType = c!"variant" → p.variants ≠ []) ∧
    (a.searchType ≠ c!"family" → ∀ text, a.hasVariant = some text → HasVariant w p text)

/-- The package is one that is searched for. -/
def Wanted (w : World) (a : Args) (p : Pkg) : Prop := InTime w a p ∧ InType w a p ∧ Matches w a p

/-- The packages the repositories have. -/
def Stored (w : World) : List Pkg :=
  match w.listed with
  | .ok names => names.flatMap fun n => match w.find n with | .ok ps => ps | _ => []
  | _ => []

/-- `p` is newer than `q`: it has a version and `q` has none or a lesser one. -/
def Newer (p q : Pkg) : Prop :=
  ∃ v, p.version = some v ∧ ∀ u, q.version = some u → v.cmp u = .gt

/-- The versions of the packages are in a total order. -/
def Ordered (ps : List Pkg) : Prop :=
  ∀ p ∈ ps, ∀ q ∈ ps, ∀ r ∈ ps, ∀ x y z, p.version = some x → q.version = some y → r.version = some z →
    x.cmp y ≠ .gt → y.cmp z ≠ .gt → x.cmp z ≠ .gt

/-- The names of the results. -/
def names (rs : List Res) : List Str := rs.map fun r => r.package.name

/-- The string is at most 37 bytes long or has a character that starts at byte 37. -/
def Cuttable (d : Str) : Prop :=
  (d.map Char.utf8Size).sum ≤ 37 ∨ ∃ t u, d = t ++ u ∧ (t.map Char.utf8Size).sum = 37

end Rez.Spec.SearchCommand
