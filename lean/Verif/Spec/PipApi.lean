import Verif.Model.PipApi
import Verif.Spec.PackageQuery
import Verif.Spec.Range
import Verif.Spec.Requirement
/-!
# What converting pip packages promises
-/
namespace Rez.PipApi.Spec
open Rez Rez.Spec Rez.PackageOrder Rez.PackageQuery Rez.Spec.PackageQuery

/-- A name as packages have it: lower case, `-` for `_`. -/
def plain (s : Str) : Str := s.map fun c => if c = '_' then '-' else lowerChar c

/-- Blanks. -/
def Blanks (s : Str) : Prop := ∀ c ∈ s, isWs c = true

/-- The text is a pip specifier: comparisons set apart by commas, with blanks around them. -/
def Written (cs : List (Op × Version)) (t : Str) : Prop :=
  ∃ parts, t = joinWith c!"," parts ∧
    List.Forall₂ (fun c p => ∃ a b, Blanks a ∧ Blanks b ∧ p = a ++ (c.1.text ++ c.2.asStr) ++ b) cs parts

/-- A version that is written with letters, digits, dots, hyphens and underscores, and is not the word `empty`. -/
def Usual (v : Version) : Prop := RealVersion v ∧ '+' ∉ v.asStr ∧ v.asStr ≠ c!"empty"

/-- The package that a requirement names, up to its version. -/
def Names (name r : Str) : Prop :=
  ∃ a b, trim r = a ++ b ∧ (∀ c ∈ a, c ∉ c!"-<>=!~") ∧ (∀ c, b.head? = some c → c ∈ c!"-<>=!~") ∧ plain a = plain name

end Rez.PipApi.Spec
