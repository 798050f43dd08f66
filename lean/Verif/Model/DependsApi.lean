import Verif.Model.PackageQuery
/-!
# Reverse dependencies, from Python: `rez-next-python/src/depends_bindings.rs`

The packages are those of the repositories (`Model/PackageQuery.lean`).  Left out: the dictionaries and the texts of `__repr__`.
-/
namespace Rez.DependsApi
open Rez Rez.PackageOrder Rez.PackageQuery

/-- depends_bindings.rs:13-28 `struct PyDependsEntry`; `direct` is `dependency_type`. -/
structure Entry where
  name : Str
  version : Str
  requirement : Str
  direct : Bool
deriving DecidableEq

/-- depends_bindings.rs:54-66 `struct PyDependsResult`. -/
structure Result where
  queried : Str
  direct : List Entry
  transitive : List Entry
deriving DecidableEq

/-- depends_bindings.rs:199-214, 238-243: the first requirement of a package that counts. -/
def firstOf (counts : PackageRequirement → Bool) : List Str → Outcome (Option Str)
  | [] => .ok none
  | r :: rest =>
    match PackageRequirement.parse r with
    | .ok q => if counts q then .ok (some r) else firstOf counts rest
    | .err => firstOf counts rest
    | .panic => .panic

/-- depends_bindings.rs:193-231, 234-258: the packages with such a requirement. -/
def collect (skip : Package → Bool) (counts : PackageRequirement → Bool) (direct : Bool) : List Package → Outcome (List Entry)
  | [] => .ok []
  | p :: rest =>
    if skip p then collect skip counts direct rest
    else match firstOf counts p.requires with
      | .ok r =>
        match collect skip counts direct rest with
        | .ok l => .ok ((r.map fun r => ⟨p.name, versionShown p, r, direct⟩).toList ++ l)
        | .err => .err
        | .panic => .panic
      | .err => .err
      | .panic => .panic

/-- depends_bindings.rs:174-176: the range that is asked about. -/
def targetRange (range : Option Str) : Option VersionRange :=
  match range with
  | some t => if t.isEmpty then none else VersionRange.parse t
  | none => none

/-- depends_bindings.rs:201-213: the requirement is about the target. -/
def about (target : Str) (range : Option VersionRange) (q : PackageRequirement) : Bool :=
  q.name == target &&
  match range, q.spec with
  | some r, some spec => match VersionRange.parse spec with | some s => s.intersects r | none => true
  | _, _ => true

/-- depends_bindings.rs:149-268 `compute_depends`, given the packages. -/
def dependsOf (all : List Package) (target : Str) (range : Option Str) (transitive : Bool) : Outcome Result :=
  match collect (fun p => p.name == target) (about target (targetRange range)) true all with
  | .ok direct =>
    if transitive then
      let names := direct.map (·.name)
      match collect (fun p => p.name == target || names.contains p.name) (fun q => names.contains q.name) false all with
      | .ok l => .ok ⟨target, direct, l⟩
      | .err => .err
      | .panic => .panic
    else .ok ⟨target, direct, []⟩
  | .err => .err
  | .panic => .panic

/-- depends_bindings.rs:149-268, 292-315 `get_reverse_dependencies`. -/
def reverse (w : World) (target : Str) (range : Option Str) (paths : Option (List Str)) (transitive : Bool) : Outcome Result :=
  match allFamilies w paths with
  | .ok l => dependsOf (l.flatMap Prod.snd) target range transitive
  | .err => .err
  | .panic => .panic

/-- The name and the version of an entry. -/
def Entry.shown (e : Entry) : Str := e.name ++ c!"-" ++ e.version

/-- depends_bindings.rs:71-80 `total_count`; a hash set holds each text once. -/
def Result.total (r : Result) : Nat := ((r.direct ++ r.transitive).map Entry.shown).foldl sadd [] |>.length

/-- depends_bindings.rs:320-336 `get_dependants`. -/
def dependants (w : World) (target : Str) (range : Option Str) (paths : Option (List Str)) : Outcome (List Str) :=
  match reverse w target range paths false with
  | .ok r => .ok (Search.dedup (Search.sortStr (r.direct.map Entry.shown)))
  | .err => .err
  | .panic => .panic

/-- depends_bindings.rs:101, 112: by name, then by the text of the version. -/
def cmpEntry (a b : Entry) : Ordering := (cmpStr a.name b.name).then (cmpStr a.version b.version)

/-- depends_bindings.rs:99-109, 111-121: a group of lines. -/
def group (title : Str) (l : List Entry) : List Str :=
  if l.isEmpty then []
  else title :: (l.insertionSort fun a b => cmpEntry a b ≠ .gt).map fun e =>
    c!"    " ++ e.name ++ c!"-" ++ e.version ++ c!"  (requires '" ++ e.requirement ++ c!"')"

/-- depends_bindings.rs:89-125 `format`: the lines. -/
def lines (r : Result) : List Str :=
  (c!"Reverse dependencies for '" ++ r.queried ++ c!"':") ::
  if r.direct.isEmpty && r.transitive.isEmpty then [c!"  (no dependants found)"]
  else group c!"  Direct:" r.direct ++ group c!"  Transitive:" r.transitive

end Rez.DependsApi
