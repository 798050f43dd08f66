import Verif.Model.PackageOrder
import Verif.Model.Requirement
import Mathlib.Data.List.Sort
/-!
# Two resolved contexts compared: `rez-next-python/src/diff_bindings.rs`

The order in which a hash map is iterated is a parameter.  Left out: the dictionaries, and the loading of context files
(`Model/Context.lean`).
-/
namespace Rez.ContextDiff
open Rez Rez.PackageOrder

/-- diff_bindings.rs:28-30: the texts of `change_type`. -/
inductive Kind where
  | added | removed | upgraded | downgraded | unchanged
deriving DecidableEq

/-- diff_bindings.rs:18-31 `struct PyPackageDiff`. -/
structure Entry where
  name : Str
  old : Option Str
  new : Option Str
  kind : Kind
deriving DecidableEq

/-- diff_bindings.rs:147-154: the map of the versions by name; of two packages of a name the later one stays. -/
def versionMap (ps : List Package) : List (Str × Version) :=
  ps.foldl (fun m p => match p.version with | some v => mset m p.name v | none => m) []

/-- diff_bindings.rs:161-170: one package of the old list. -/
def removedEntry (new : List (Str × Version)) (e : Str × Version) : Option Entry :=
  if (mget new e.1).isSome then none else some ⟨e.1, some e.2.repr, none, .removed⟩

/-- diff_bindings.rs:173-182: one package of the new list. -/
def addedEntry (old : List (Str × Version)) (e : Str × Version) : Option Entry :=
  if (mget old e.1).isSome then none else some ⟨e.1, none, some e.2.repr, .added⟩

/-- diff_bindings.rs:187-193. -/
def kindOf (old new : Version) : Kind :=
  if new.repr == old.repr then .unchanged else if new.gt old then .upgraded else .downgraded

/-- diff_bindings.rs:185-201: one package of both lists. -/
def commonEntry (old : List (Str × Version)) (e : Str × Version) : Option Entry :=
  (mget old e.1).map fun o => ⟨e.1, some o.repr, some e.2.repr, kindOf o e.2⟩

/-- diff_bindings.rs:205-211 `order`. -/
def rank : Kind → Nat
  | .added => 0
  | .removed => 1
  | .upgraded => 2
  | .downgraded => 3
  | .unchanged => 4

/-- diff_bindings.rs:212-214. -/
def cmpEntry (a b : Entry) : Ordering := (compare (rank a.kind) (rank b.kind)).then (cmpStr a.name b.name)

/-- diff_bindings.rs:144-218 `compute_diff`; `io` and `iw` are the orders of the two maps. -/
def compute (io iw : List (Str × Version) → List (Str × Version)) (old new : List Package) : List Entry :=
  let o := versionMap old
  let n := versionMap new
  ((io o).filterMap (removedEntry n) ++ (iw n).filterMap (addedEntry o) ++ (iw n).filterMap (commonEntry o)).insertionSort
    fun a b => cmpEntry a b ≠ .gt

/-- diff_bindings.rs:80-95 `struct PyContextDiff`. -/
structure Summary where
  diffs : List Entry
  added : Nat
  removed : Nat
  upgraded : Nat
  downgraded : Nat
  unchanged : Nat
deriving DecidableEq

/-- How many entries are of this kind. -/
def count (k : Kind) (l : List Entry) : Nat := (l.filter fun d => d.kind == k).length

/-- diff_bindings.rs:273-294, 335-356: the summary of the entries. -/
def summary (l : List Entry) : Summary :=
  ⟨l, count .added l, count .removed l, count .upgraded l, count .downgraded l, count .unchanged l⟩

/-- diff_bindings.rs:100-106 `changed_diffs`. -/
def Summary.changed (s : Summary) : List Entry := s.diffs.filter fun d => d.kind != .unchanged

/-- diff_bindings.rs:109-114 `is_identical`. -/
def Summary.identical (s : Summary) : Bool := s.added == 0 && s.removed == 0 && s.upgraded == 0 && s.downgraded == 0

/-- diff_bindings.rs:363-381: the line of an entry. -/
def line (d : Entry) : Option Str :=
  let o := d.old.getD c!"?"
  let n := d.new.getD c!"?"
  match d.kind with
  | .added => some (c!"  + " ++ d.name ++ c!" " ++ n)
  | .removed => some (c!"  - " ++ d.name ++ c!" " ++ o)
  | .upgraded => some (c!"  ^ " ++ d.name ++ c!" " ++ o ++ c!" -> " ++ n)
  | .downgraded => some (c!"  v " ++ d.name ++ c!" " ++ o ++ c!" -> " ++ n)
  | .unchanged => none

/-- diff_bindings.rs:360-390 `format_diff`. -/
def format (s : Summary) : Str :=
  let lines := s.diffs.filterMap line
  if lines.isEmpty then c!"  (no changes)" else joinWith c!"\n" lines

/-- diff_bindings.rs:248-263: the package of a text. -/
def packageOf (s : Str) : Outcome Package :=
  let make (name : Str) (spec : Option Str) : Package :=
    ⟨name, match spec with | some t => if t.isEmpty then none else Version.parse t | none => none, [], [], [], none⟩
  match PackageRequirement.parse s with
  | .ok r => .ok (make r.name r.spec)
  | .err => .ok (make s none)
  | .panic => .panic

/-- diff_bindings.rs:246-266 `parse_pkg_list`. -/
def packagesOf : List Str → Outcome (List Package)
  | [] => .ok []
  | s :: rest =>
    match packageOf s with
    | .ok p =>
      match packagesOf rest with
      | .ok l => .ok (p :: l)
      | .err => .err
      | .panic => .panic
    | .err => .err
    | .panic => .panic

/-- diff_bindings.rs:237-295 `diff_contexts`. -/
def contexts (io iw : List (Str × Version) → List (Str × Version)) (old new : List Str) : Outcome Summary :=
  match packagesOf old, packagesOf new with
  | .ok o, .ok n => .ok (summary (compute io iw o n))
  | .panic, _ => .panic
  | _, .panic => .panic
  | _, _ => .err

end Rez.ContextDiff
