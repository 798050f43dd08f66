import Verif.Model.Context
import Verif.Spec.Search
/-!
# Specification vocabulary for contexts
-/
namespace Rez.Spec.Context
open Rez Rez.Context

/-- A package meets a requirement, flags aside: it has the name, and no version or one in the range. -/
def Meets (p : Pkg) (r : PackageRequirement) : Prop := p.name = r.name ∧ ∀ v, p.version = some v → r.satisfiedBy v = true

/-- What a requirement asks of the packages of a context: a conflict that no package meets it, a weak one that no package
of the name fails it, the others that some package meets it. -/
def Asks (r : PackageRequirement) (ps : List Pkg) : Prop :=
  if r.conflict then ∀ p ∈ ps, ¬ Meets p r
  else if r.weak then ∀ p ∈ ps, p.name = r.name → Meets p r
  else ∃ p ∈ ps, Meets p r

/-- A package that can be used: a name of letters, digits, `_` and `-`, and no empty texts where names are due. -/
structure WellFormed (alnum : Char → Bool) (p : Pkg) : Prop where
  name : p.name ≠ [] ∧ ∀ c ∈ p.name, alnum c = true ∨ c = '_' ∨ c = '-'
  version : ∀ v, p.version = some v → v.asStr ≠ []
  texts : [] ∉ p.requires ∧ [] ∉ p.buildRequires ∧ [] ∉ p.privateRequires ∧ ∀ v ∈ p.variants, [] ∉ v

/-- Reading an environment file: one `NAME=value` per line, empty lines and comments skipped. -/
def readEnv (text : Str) : List (Str × Str) :=
  (splitChar '\n' text).filterMap fun l =>
    if l.isEmpty || l.head? == some '#' then none else splitOnce c!"=" l

/-- A text with references, as a user writes it. -/
inductive Tok where
  | lit (s : Str)
  | pkg (key : Str)
  | var (name : Str)

/-- How it is written. -/
def Tok.text : Tok → Str
  | .lit s => s
  | .pkg k => c!"{" ++ k ++ c!"}"
  | .var n => c!"${" ++ n ++ c!"}"

/-- The keys of a package and their values. -/
def keys (r : Resolved) : List (Str × Str) :=
  [(c!"root", r.root)] ++ (r.pkg.version.map fun v => (c!"version", v.asStr)).toList ++
    (r.variant.map fun i => (c!"variant_index", decimal i)).toList

/-- What it means; references to nothing stay as they are. -/
def Tok.value (r : Resolved) (env : Str → Option Str) : Tok → Str
  | .lit s => s
  | .pkg k => (mget (keys r) k).getD (Tok.pkg k).text
  | .var n => (env n).getD (Tok.var n).text

/-- Text without the characters of references. -/
def Plain (s : Str) : Prop := '$' ∉ s ∧ '{' ∉ s ∧ '}' ∉ s

/-- A text with references that cannot be misread: plain literals and names, and no variable named like a key. -/
def Tok.Ok : Tok → Prop
  | .lit s => Plain s
  | .pkg k => Plain k
  | .var n => Plain n ∧ n ≠ c!"root" ∧ n ≠ c!"version" ∧ n ≠ c!"variant_index"

end Rez.Spec.Context
