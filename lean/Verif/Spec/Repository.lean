import Verif.Model.Repository
import Verif.Spec.PackageOrder
/-!
# Specification vocabulary for repositories
-/
namespace Rez.Spec.Repository
open Rez Rez.Repository Rez.PackageOrder

mutual
/-- The packages below an entry that can be loaded, in the order of the directories. -/
def found : Tree → List Package
  | .package (.ok p) => [p]
  | .package (.error _) => []
  | .folder _ children => foundBelow children
def foundBelow : List (Str × Tree) → List Package
  | [] => []
  | (_, t) :: rest => found t ++ foundBelow rest
end

mutual
/-- Every descriptor below an entry can be loaded and every directory read. -/
def Clean : Tree → Prop
  | .package (.ok _) => True
  | .package (.error _) => False
  | .folder readable children => readable = true ∧ CleanBelow children
def CleanBelow : List (Str × Tree) → Prop
  | [] => True
  | (_, t) :: rest => Clean t ∧ CleanBelow rest
end

/-- The packages in a repository directory. -/
def onDisk (root : Root) : List Package := foundBelow (root.getD [])

/-- The packages of one family in it. -/
def ofFamily (root : Root) (name : Str) : List Package := (onDisk root).filter fun p => p.name == name

/-- Everything in a repository directory can be read. -/
def Sound (root : Root) : Prop := ∃ entries, root = some entries ∧ CleanBelow entries

/-- A call on a repository. -/
inductive Query where
  | find (name : Str)
  | get (name : Str) (version : Option Str)
  | list
  | scan

/-- The repository after a call. -/
def ask (srt : Sorting) (root : Root) (s : State) : Query → State
  | .find n => (Repository.find root s n).1
  | .get n v => (Repository.get srt root s n v).1
  | .list => (Repository.list id root s).1
  | .scan => (Repository.scan root).1

/-- The repository after calls, each made when the directory holds what is given with it. -/
def asked (srt : Sorting) : State → List (Root × Query) → State
  | s, [] => s
  | s, (root, q) :: rest => asked srt (ask srt root s q) rest

/-- A repository object that has only ever seen the directory as it is now. -/
def UpToDate (srt : Sorting) (root : Root) (s : State) : Prop :=
  ∃ queries : List Query, s = asked srt State.new (queries.map fun q => (root, q))

/-- No package of the list has a higher version than `p`, and `p` has a version if any has. -/
def Highest (p : Package) (ps : List Package) : Prop :=
  p ∈ ps ∧ ∀ q ∈ ps, (p.version = none → q.version = none) ∧
    ∀ u v, p.version = some u → q.version = some v → u.cmp v ≠ .lt

end Rez.Spec.Repository
