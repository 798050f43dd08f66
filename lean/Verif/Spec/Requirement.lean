import Verif.Model.Requirement
import Verif.Spec.Range
/-!
# Specification vocabulary for requirements
-/
namespace Rez.Spec
open Rez

/-- The comparison operators that may follow a package name. -/
inductive ROp where
  | eq | ge | le | gt | lt | compat
deriving DecidableEq

/-- How the operator is written. -/
def ROp.text : ROp → Str
  | .eq => c!"=="
  | .ge => c!">="
  | .le => c!"<="
  | .gt => c!">"
  | .lt => c!"<"
  | .compat => c!"~="

/-- The constraint the operator spells. -/
def ROp.constraint : ROp → Version → VersionConstraint
  | .eq, v => .exact v
  | .ge, v => .greaterThanOrEqual v
  | .le, v => .lessThanOrEqual v
  | .gt, v => .greaterThan v
  | .lt, v => .lessThan v
  | .compat, v => .compatible v

/-- A package name or namespace: non-empty, of letters, digits, `_`, `-` and `.`. -/
def PkgName (s : Str) : Prop := s ≠ [] ∧ ∀ c ∈ s, isTok c = true ∨ c = '-' ∨ c = '.'

/-- A version as returned by `Version::parse`, other than the empty one. -/
def RealVersion (v : Version) : Prop := Parsed v ∧ v.asStr ≠ []

/-- No character of `bad` occurs in `s`. -/
def Free (bad : Str) (s : Str) : Prop := ∀ c ∈ bad, c ∉ s

/-- What may stand in front of the name. -/
inductive Flag where
  | plain | weak | conflict
deriving DecidableEq
/-- `!` marks a conflict, `~` a weak requirement. -/
def Flag.text : Flag → Str
  | .plain => []
  | .weak => c!"~"
  | .conflict => c!"!"

/-- The constraints that can be written after the name `name` and read back. -/
inductive Writable (name : Str) : Option VersionConstraint → Prop
  | none : '-' ∉ name → Writable name none
  | op (o : ROp) (v : Version) : RealVersion v → Writable name (some (o.constraint v))
  | list (cs : List (ROp × Version)) : 2 ≤ cs.length → (∀ c ∈ cs, RealVersion c.2) →
      Writable name (some (.multiple (cs.map fun c => c.1.constraint c.2)))
  | prefixOf (v : Version) : '-' ∉ name → Parsed v → Writable name (some (.prefixOf v))
  | wildcard (c : Char) (p : Str) : '*' ∈ p → Free c!"\n[" (c :: p) →
      (∀ d, p.getLast? = some d → isWs d = false) → Writable name (some (.wildcard (c :: p)))

/-- A platform condition that can be written and read back. -/
structure WritablePlatform (c : PlatformCondition) : Prop where
  platform : Free c!"']=\n" c.platform
  arch : c.arch = none

/-- An environment condition that can be written and read back. -/
structure WritableEnv (c : EnvCondition) : Prop where
  varName : Free c!"]=!\n" c.varName
  value : ∀ v, c.expected = some v → Free c!"']=\n" v
  exists_ : c.expected = none → c.negate = false

/-- A requirement that can be written and read back. -/
structure WritableReq (r : Requirement) : Prop where
  name : PkgName r.name
  ns : ∀ n, r.ns = some n → PkgName n
  flags : ¬ (r.weak = true ∧ r.conflict = true)
  constraint : Writable r.name r.constraint
  platforms : ∀ c ∈ r.platforms, WritablePlatform c
  envs : ∀ c ∈ r.envs, WritableEnv c

end Rez.Spec
