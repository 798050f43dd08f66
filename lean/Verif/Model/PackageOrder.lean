import Verif.Base.Json
import Verif.Model.Graph
/-!
# `rez-next-package/src/package_order.rs`: package orderers
-/
namespace Rez.PackageOrder

mutual
/-- package_order.rs:57-325: the five orderers.  The families an orderer is meant for are the last argument. -/
inductive Order where
  | null (packages : Option (List Str))
  | sorted (descending : Bool) (packages : Option (List Str))
  | split (first : Version) (packages : Option (List Str))
  | perFamily (dict : Dict) (dflt : Default)
  | timestamp (at_ : Int) (rank : Int) (packages : Option (List Str))
/-- package_order.rs:227 `order_dict: HashMap<String, Box<dyn PackageOrder>>`. -/
inductive Dict where
  | nil
  | cons (family : Str) (o : Order) (rest : Dict)
/-- package_order.rs:228 `default_order: Option<Box<dyn PackageOrder>>`. -/
inductive Default where
  | none
  | some (o : Order)
end

/-- What the standard library decides: `sort_by` (which may panic on a comparison that is not a total order) and the
order in which a map of families is iterated. -/
structure Sorting where
  sort : (Package → Package → Ordering) → List Package → Outcome (List Package)
  groups : List Str → List Str

/-- package_order.rs:115-142: the comparison of `SortedOrder`. -/
def sortedCmp (descending : Bool) (a b : Package) : Ordering :=
  match a.version, b.version with
  | some av, some bv => if descending then bv.cmp av else av.cmp bv
  | some _, none => .lt
  | none, some _ => .gt
  | none, none => .eq

/-- package_order.rs:202-203: the comparison of `VersionSplitPackageOrder`; versions are present where it is called
(see `sortSplit`). -/
def splitCmp (a b : Package) : Ordering :=
  match a.version, b.version with
  | some av, some bv => av.cmp bv
  | _, _ => .eq

/-- package_order.rs:202-203: `unwrap` on a missing version panics as soon as the sort compares, which it does with
every element of a list of two or more. -/
def sortSplit (s : Sorting) (l : List Package) : Outcome (List Package) :=
  if 2 ≤ l.length ∧ l.any (fun p => p.version.isNone) then .panic else s.sort splitCmp l

/-- package_order.rs:190-198: does the package go to the front part? -/
def atMost (first : Version) (p : Package) : Bool :=
  match p.version with
  | some v => v.cmp first != .gt
  | none => false

/-- package_order.rs:345-360: the comparison of `TimestampPackageOrder`. -/
def timestampCmp (t : Int) (a b : Package) : Ordering :=
  let at_ := a.timestamp.getD 0
  let bt := b.timestamp.getD 0
  if at_ ≤ t ∧ ¬ bt ≤ t then .lt
  else if ¬ at_ ≤ t ∧ bt ≤ t then .gt
  else compare bt at_

/-- package_order.rs:254-261: the families of a list. -/
def families : List Package → List Str
  | [] => []
  | p :: ps => let r := families ps; if p.name ∈ r then r else p.name :: r

/-- package_order.rs:254-261: the packages of a family, in the order of the list. -/
def group (ps : List Package) (family : Str) : List Package := ps.filter fun p => p.name == family

/-- A list wrapped in `Some`. -/
def wrap : Outcome (List Package) → Outcome (Option (List Package))
  | .ok l => .ok (some l)
  | .err => .err
  | .panic => .panic

/-- package_order.rs:269-277: a group that no orderer changes stays as it is. -/
def orElse (g : List Package) : Option (Outcome (Option (List Package))) → Outcome (List Package)
  | some (.ok (some l)) => .ok l
  | some (.ok none) => .ok g
  | some .err => .err
  | some .panic => .panic
  | none => .ok g

/-- Two lists after one another. -/
def append (a b : Outcome (List Package)) : Outcome (List Package) :=
  match a, b with
  | .ok l, .ok m => .ok (l ++ m)
  | .ok _, .err => .err
  | .ok _, .panic => .panic
  | .err, _ => .err
  | .panic, _ => .panic

/-- package_order.rs:263-278: the results for the groups, in the order in which the map is iterated. -/
def collect (f : Str → Outcome (List Package)) : List Str → Outcome (List Package)
  | [] => .ok []
  | fam :: rest => append (f fam) (collect f rest)

mutual
/-- package_order.rs:77-80, 113-144, 185-208, 252-281, 336-363 `reorder`. -/
def reorder (s : Sorting) : Order → List Package → Outcome (Option (List Package))
  | .null _, _ => .ok none
  | .sorted d _, ps => wrap (s.sort (sortedCmp d) ps)
  | .split first _, ps =>
    wrap (append (sortSplit s (ps.filter (atMost first))) (sortSplit s (ps.filter fun p => !atMost first p)))
  | .perFamily d o, ps =>
    wrap (collect (fun fam => orElse (group ps fam)
      ((reorderDict s d fam (group ps fam)).or (reorderDefault s o (group ps fam)))) (s.groups (families ps)))
  | .timestamp t _ _, ps => wrap (s.sort (timestampCmp t) ps)
/-- package_order.rs:266-267: the orderer of a family in the map, applied. -/
def reorderDict (s : Sorting) : Dict → Str → List Package → Option (Outcome (Option (List Package)))
  | .nil, _, _ => none
  | .cons f o rest, fam, ps => if f = fam then some (reorder s o ps) else reorderDict s rest fam ps
/-- package_order.rs:267: the default orderer, applied. -/
def reorderDefault (s : Sorting) : Default → List Package → Option (Outcome (Option (List Package)))
  | .none, _ => none
  | .some o, ps => some (reorder s o ps)
end

/-- package_order.rs:21, 73-75, 109-111, 181-183, 247-250, 332-334 `packages`. -/
def Order.packages : Order → Option (List Str)
  | .null p => p
  | .sorted _ p => p
  | .split _ p => p
  | .perFamily _ _ => none
  | .timestamp _ _ p => p

/-- package_order.rs:399-411 `PackageOrderList::get`. -/
def getFirst : List Order → Str → Option Order
  | [], _ => none
  | o :: rest, name =>
    match o.packages with
    | some l => if name ∈ l then some o else getFirst rest name
    | none => some o

/-- package_order.rs:485-497 `get_orderer`. -/
def getOrderer (name : Str) (orderers : Option (List Order)) : Order :=
  match orderers with
  | some l => (getFirst l name).getD (.null none)
  | none => .null none

/-- `Option<Vec<String>>` as JSON. -/
def podNames : Option (List Str) → Json
  | some l => .arr (l.map Json.str)
  | none => .null

mutual
/-- package_order.rs:82-87, 146-152, 210-216, 283-294, 365-372 `to_pod`. -/
def toPod : Order → Json
  | .null p => .obj [(c!"type", .str c!"no_order"), (c!"packages", podNames p)]
  | .sorted d p => .obj [(c!"type", .str c!"sorted"), (c!"descending", .bool d), (c!"packages", podNames p)]
  | .split v p => .obj [(c!"type", .str c!"version_split"), (c!"first_version", .str v.asStr), (c!"packages", podNames p)]
  | .perFamily d o =>
    .obj [(c!"type", .str c!"per_family"), (c!"order_dict", .obj (dictPod d)), (c!"default_order", defaultPod o)]
  | .timestamp t r p =>
    .obj [(c!"type", .str c!"soft_timestamp"), (c!"timestamp", .num t), (c!"rank", .num r), (c!"packages", podNames p)]
/-- package_order.rs:284-287. -/
def dictPod : Dict → List (Str × Json)
  | .nil => []
  | .cons f o rest => (f, toPod o) :: dictPod rest
/-- package_order.rs:292. -/
def defaultPod : Default → Json
  | .none => .null
  | .some o => toPod o
end

/-- package_order.rs:435-439 and the like: the `packages` field. -/
def readNames (j : Json) : Option (List Str) :=
  ((j.get c!"packages").bind Json.asArr).map fun l => l.filterMap Json.asStr

/-- `as i32` of an `i64`. -/
def toI32 (n : Int) : Int := (n + 2 ^ 31) % 2 ^ 32 - 2 ^ 31

/-- package_order.rs:430-482 `from_pod`. -/
def fromPod (j : Json) : Option Order := do
  let ty ← (← j.get c!"type").asStr
  if ty = c!"no_order" then some (.null (readNames j))
  else if ty = c!"sorted" then some (.sorted (← (← j.get c!"descending").asBool) (readNames j))
  else if ty = c!"version_split" then
    some (.split (← Version.parse (← (← j.get c!"first_version").asStr)) (readNames j))
  else if ty = c!"soft_timestamp" then
    some (.timestamp (← (← j.get c!"timestamp").asI64)
      (toI32 (((j.get c!"rank").bind Json.asI64).getD 0)) (readNames j))
  else none

/-- package_order.rs:383-391 `PackageOrderList::from_pod`. -/
def listFromPod (l : List Json) : List Order := l.filterMap fromPod

/-- package_order.rs:393-395 `PackageOrderList::to_pod`. -/
def listToPod (l : List Order) : List Json := l.map toPod

end Rez.PackageOrder
