import Verif.Model.RuleFilter
import Verif.Model.PyPackage
/-!
# Package filters from Python: `rez-next-python/src/package_filter_bindings.rs`

On top of the filters that keep their rules as text; Python values are those of package files.  Left out: the classes and texts of the
errors, and the hash.
-/
namespace Rez.PyFilter
open Rez Rez.RuleFilter

/-- package_filter_bindings.rs:93-131 `dict_to_package`; `none` is an error. -/
def toPackage (d : Serial.Fields) : Option Pkg := do
  let name ← (mget d c!"name").bind Serial.text
  let version ← Serial.field d c!"version" (fun v => (Serial.versionText v).map some) none
  let description ← Serial.field d c!"description" (fun v => (Serial.text v).map some) none
  let timestamp ← Serial.field d c!"timestamp" (fun v => (PyPackage.integer 63 v).map some) none
  pure ⟨⟨name, version, [], [], [], timestamp⟩, description⟩

/-- package_filter_bindings.rs:24-33 `excludes`. -/
def excludes (e : Engine) (f : PackageFilter) (d : Serial.Fields) : Option Str :=
  (toPackage d).bind fun p => (f.excludes e p).map fun pod => pod.1 ++ c!":" ++ pod.2

/-- package_filter_bindings.rs:36-42 `includes`. -/
def includes (e : Engine) (f : PackageFilter) (d : Serial.Fields) : Bool :=
  match toPackage d with
  | some p => f.includes e p
  | none => false

/-- A call of `add_exclusion` or `add_inclusion`. -/
inductive Call where
  | exclusion (text : Str)
  | inclusion (text : Str)

/-- package_filter_bindings.rs:45-58 `add_exclusion`, `add_inclusion`, filter.rs:113-124: the filter afterwards, and whether the call
succeeded. -/
def call (e : Engine) (f : PackageFilter) : Call → PackageFilter × Bool
  | .exclusion t => match parseRule e t with
    | some r => (f.addExclusion r, true)
    | none => (f, false)
  | .inclusion t => match parseRule e t with
    | some r => (f.addInclusion r, true)
    | none => (f, false)

/-- The filter after calls, whose errors are caught. -/
def after (e : Engine) (calls : List Call) : PackageFilter := calls.foldl (fun f c => (call e f c).1) PackageFilter.new

/-- package_filter_bindings.rs:61-72 `to_pod`, filter.rs:129-153: an empty list is left out. -/
def toPod (f : PackageFilter) : List (Str × List Str) :=
  (if f.exclusions.isEmpty then [] else [(c!"exclusions", f.exclusions.map podText)]) ++
    (if f.inclusions.isEmpty then [] else [(c!"inclusions", f.inclusions.map podText)])

/-- package_filter_bindings.rs:75-85 `from_pod`, filter.rs:156-172. -/
def fromPod (e : Engine) (d : List (Str × List Str)) : Option PackageFilter :=
  RuleFilter.fromPod e ((mget d c!"exclusions").getD [], (mget d c!"inclusions").getD [])

end Rez.PyFilter
