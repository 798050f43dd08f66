import Verif.Model.Source
import Verif.Spec.Shell
/-!
# Specification vocabulary for source scripts and the status of the environment
-/
namespace Rez.Source.Spec
open Rez Rez.Source Rez.Spec.Shell

/-- A request: a name without a dash, and a version after the first dash, or none. -/
def Request (pkg name version : Str) : Prop :=
  '-' ∉ name ∧ (pkg = name ++ '-' :: version ∨ (pkg = name ∧ version = []))

/-- How the name of a package is written in the name of a variable: in capitals, with an underscore for a point. -/
def capital (c : Char) : Char := if c = '.' then '_' else if 'a'.toNat ≤ c.toNat ∧ c.toNat ≤ 'z'.toNat then Char.ofNat (c.toNat - 32) else c

/-- The variable `k` is to have the value `v`: it belongs to a request, and no later one has the same variable. -/
def OfRequest (pkgs : List Str) (k v : Str) : Prop :=
  ∃ before pkg after name, pkgs = before ++ pkg :: after ∧ Request pkg name v ∧ k = c!"REZPKG_" ++ name.map capital ∧
    ∀ q ∈ after, ∀ n w, Request q n w → k ≠ c!"REZPKG_" ++ n.map capital

/-- What the script is to set. -/
inductive Sets (h : Here) (pkgs : List Str) : Str → Str → Prop
  | file : Sets h pkgs c!"REZ_CONTEXT_FILE" (Which.join h.temp c!"rez_context.rxt")
  | resolve : Sets h pkgs c!"REZ_RESOLVE" (joinWith c!" " pkgs)
  | path {p : Str} : getVar h c!"REZ_PACKAGES_PATH" = some p → Sets h pkgs c!"REZ_PACKAGES_PATH" p
  | package {k v : Str} : OfRequest pkgs k v → Sets h pkgs k v

/-- After the script: what is to be set is set, and the rest is as before. -/
def Done (h : Here) (pkgs : List Str) (st st' : State) : Prop :=
  (∀ k v, Sets h pkgs k v → st'.var k = some v) ∧ (∀ k, (∀ v, ¬ Sets h pkgs k v) → st'.var k = st.var k) ∧ st'.alias = st.alias

/-- Names of packages that can be part of the name of a variable. -/
def Nameable (pkgs : List Str) : Prop := ∀ pkg ∈ pkgs, ∀ n v, Request pkg n v → ∀ c ∈ n, isTok c = true ∨ c = '.'

/-- None of the characters is in a request, in the name of the temporary directory or in the path of packages. -/
def Without (bad : Str) (h : Here) (pkgs : List Str) : Prop :=
  ∀ c ∈ bad, (∀ pkg ∈ pkgs, c ∉ pkg) ∧ c ∉ h.temp ∧ ∀ p, getVar h c!"REZ_PACKAGES_PATH" = some p → c ∉ p

/-- Every value is Unicode. -/
def Unicode (h : Here) : Prop := ∀ x ∈ h.env, x.2 ≠ none

end Rez.Source.Spec
