import Verif.Model.Version
/-!
# Model of `rez-next-version/src/range/` (`mod.rs`, `types.rs`, `parser.rs`, `satisfiability.rs`)
-/
namespace Rez

/-- range/types.rs:7-26 `enum Bound`. -/
inductive Bound where
  | ge (v : Version)
  | gt (v : Version)
  | le (v : Version)
  | lt (v : Version)
  | eq (v : Version)
  | ne (v : Version)
  | compatible (v : Version)
  | any
  | none
deriving DecidableEq, Repr

/-- range/types.rs:30-32 `struct BoundSet` (a conjunction). -/
abbrev BoundSet := List Bound

/-- range/types.rs:79-93: the text of the exclusive upper bound of `~=v`, from the parts of the printed
version.  `x + 1` is a `u64` addition: it wraps in a release build (and panics in a debug build); the
release behaviour is modelled.  `none` stands for the `return true` branches. -/
def compatUpper (parts : List Str) : Option Str :=
  match parts with
  | [p0, _] => (parseU64 p0).map fun x => decimal ((x + 1) % 2 ^ 64) ++ c!".0"
  | p0 :: p1 :: _ => (parseU64 p1).map fun y => p0 ++ c!"." ++ decimal ((y + 1) % 2 ^ 64) ++ c!".0"
  | _ => none

/-- range/types.rs:57-102 `bound_matches`. -/
def boundMatches (b : Bound) (version : Version) : Bool :=
  match b with
  | .any => true
  | .none => false
  | .ge v => version.ge v
  | .gt v => version.gt v
  | .le v => version.le v
  | .lt v => version.lt v
  | .eq v => version.eqv v
  | .ne v => !version.eqv v
  | .compatible v =>
    if version.lt v then false
    else
      let parts := splitChar '.' v.asStr
      if parts.length < 2 then version.ge v
      else match compatUpper parts with
        | none => true
        | some u =>
          match Version.parse u with
          | some upper => version.lt upper
          | none => version.ge v

/-- range/types.rs:47-54 `BoundSet::contains`. -/
def BoundSet.contains (bs : BoundSet) (v : Version) : Bool := bs.all (fun b => boundMatches b v)

/-- range/mod.rs:22-34 `struct VersionRange`. -/
inductive VersionRange where
  | mk (rangeStr : Str) (boundSets : List BoundSet) (isParsed : Bool) (subtractFrom : List VersionRange)

namespace VersionRange
/-- field access -/
def rangeStr : VersionRange → Str | mk s _ _ _ => s
/-- field access -/
def boundSets : VersionRange → List BoundSet | mk _ b _ _ => b
/-- field access -/
def isParsed : VersionRange → Bool | mk _ _ p _ => p
/-- field access -/
def subtractFrom : VersionRange → List VersionRange | mk _ _ _ l => l

/-- range/mod.rs:44-51 `any`. -/
def any : VersionRange := mk [] [[.any]] true []
/-- range/mod.rs:54-61 `none`. -/
def none : VersionRange := mk c!"!*" [[.none]] true []

mutual
/-- range/mod.rs:86-102 `contains`. -/
def contains : VersionRange → Version → Bool
  | mk _ bs p subs, v =>
    if !p || bs.isEmpty then true
    else if !(bs.any fun b => BoundSet.contains b v) then false
    else !containsAny subs v
/-- range/mod.rs:96-100: does some subtracted range contain the version. -/
def containsAny : List VersionRange → Version → Bool
  | [], _ => false
  | r :: rs, v => contains r v || containsAny rs v
end

/-- range/mod.rs:207-216 `is_any`. -/
def isAny (r : VersionRange) : Bool :=
  let s := trim r.rangeStr
  if s.isEmpty || s == c!"*" then true
  else r.boundSets.all fun bs => bs.isEmpty || bs.all fun b => decide (b = .any)

/-- range/mod.rs:277-289 `is_empty`. -/
def isEmpty (r : VersionRange) : Bool :=
  let s := trim r.rangeStr
  if s == c!"empty" || s == c!"!*" then true
  else if r.isParsed && !r.boundSets.isEmpty then
    r.boundSets.all fun bs => bs.any fun b => decide (b = .none)
  else false

end VersionRange

/-- The `(version, inclusive)` accumulator of satisfiability.rs. -/
abbrev Limit := Option (Version × Bool)

/-- satisfiability.rs:20-27 (and 142-149): a `>=` bound tightens the lower limit. -/
def stepGe (lower : Limit) (v : Version) : Limit :=
  match lower with
  | none => some (v, true)
  | some (lv, linc) => if v.gt lv || (v.eqv lv && !linc) then some (v, true) else lower
/-- satisfiability.rs:28-35: a `>` bound. -/
def stepGt (lower : Limit) (v : Version) : Limit :=
  match lower with
  | none => some (v, false)
  | some (lv, _) => if v.ge lv then some (v, false) else lower
/-- satisfiability.rs:36-43: a `<=` bound tightens the upper limit. -/
def stepLe (upper : Limit) (v : Version) : Limit :=
  match upper with
  | none => some (v, true)
  | some (uv, uinc) => if v.lt uv || (v.eqv uv && !uinc) then some (v, true) else upper
/-- satisfiability.rs:44-51: a `<` bound. -/
def stepLt (upper : Limit) (v : Version) : Limit :=
  match upper with
  | none => some (v, false)
  | some (uv, _) => if v.le uv then some (v, false) else upper

/-- satisfiability.rs:79-91 and 178-190: are the accumulated limits compatible. -/
def limitsOk (lower upper : Limit) : Bool :=
  match lower, upper with
  | some (lv, linc), some (uv, uinc) =>
    match lv.cmp uv with
    | .gt => false
    | .eq => linc && uinc
    | .lt => true
  | _, _ => true

/-- satisfiability.rs:54-64: an `==` bound below the lower limit (`return false`). -/
def eqBelow (lo : Limit) (v : Version) : Bool :=
  match lo with
  | some (lv, linc) => !(v.gt lv || (v.eqv lv && !linc)) && v.lt lv
  | none => false
/-- satisfiability.rs:65-74: an `==` bound above the upper limit (`return false`). -/
def eqAbove (up : Limit) (v : Version) : Bool :=
  match up with
  | some (uv, uinc) => !(v.lt uv || (v.eqv uv && !uinc)) && v.gt uv
  | none => false

/-- satisfiability.rs:16-77: the loop of `is_bound_set_satisfiable`; `none` is the early `return false`. -/
def satLoop : List Bound → Limit → Limit → Option (Limit × Limit)
  | [], lo, up => some (lo, up)
  | b :: bs, lo, up =>
    match b with
    | .any => satLoop bs lo up
    | .ne _ => satLoop bs lo up
    | .compatible _ => satLoop bs lo up
    | .none => none
    | .ge v => satLoop bs (stepGe lo v) up
    | .gt v => satLoop bs (stepGt lo v) up
    | .le v => satLoop bs lo (stepLe up v)
    | .lt v => satLoop bs lo (stepLt up v)
    | .eq v =>
      if eqBelow lo v then none
      else if eqAbove up v then none
      else satLoop bs (stepGe lo v) (stepLe up v)

/-- satisfiability.rs:7-93 `is_bound_set_satisfiable`. -/
def isSatisfiable (bs : BoundSet) : Bool :=
  if bs.any (fun b => decide (b = .none)) then false
  else match satLoop bs none none with
    | none => false
    | some (lo, up) => limitsOk lo up

/-- satisfiability.rs:140-176: the loop of `bound_sets_intersect`. -/
def limitLoop : List Bound → Limit → Limit → Limit × Limit
  | [], lo, up => (lo, up)
  | b :: bs, lo, up =>
    match b with
    | .ge v => limitLoop bs (stepGe lo v) up
    | .gt v => limitLoop bs (stepGt lo v) up
    | .le v => limitLoop bs lo (stepLe up v)
    | .lt v => limitLoop bs lo (stepLt up v)
    | _ => limitLoop bs lo up

/-- satisfiability.rs:108-111: the versions of the equality bounds. -/
def eqVersions (bs : List Bound) : List Version :=
  bs.filterMap fun b => match b with | .eq v => some v | _ => none

/-- satisfiability.rs:112-117: two equality bounds that differ from the first one. -/
def eqDisagree (eqs : List Version) : Bool :=
  match eqs with
  | first :: _ :: _ => eqs.any (fun v => !v.eqv first)
  | _ => false

/-- satisfiability.rs:124-130: does an equality bound contradict an inequality bound. -/
def eqClash (v : Version) (b : Bound) : Bool :=
  match b with
  | .ge w => v.lt w
  | .gt w => v.le w
  | .le w => v.gt w
  | .lt w => v.ge w
  | _ => false

/-- satisfiability.rs:96-193 `bound_sets_intersect`. -/
def boundSetsIntersect (a b : BoundSet) : Bool :=
  if a.all (fun x => decide (x = .any)) || b.all (fun x => decide (x = .any)) then true
  else
    let combined := a ++ b
    let eqs := eqVersions combined
    if eqDisagree eqs then false
    else if eqs.any (fun v => combined.any (eqClash v)) then false
    else
      let l := limitLoop combined none none
      limitsOk l.1 l.2

namespace VersionRange

/-- range/mod.rs:110-126 `intersects`. -/
def intersects (a b : VersionRange) : Bool :=
  if a.isAny || b.isAny then true
  else a.boundSets.any fun x => b.boundSets.any fun y => boundSetsIntersect x y

/-- range/mod.rs:138-149: the satisfiable pairwise conjunctions. -/
def mergedSets (a b : List BoundSet) : List BoundSet :=
  a.flatMap fun x => (b.map fun y => x ++ y).filter isSatisfiable

/-- range/mod.rs:129-163 `intersect`. -/
def intersect (a b : VersionRange) : Option VersionRange :=
  if a.isAny then some b
  else if b.isAny then some a
  else
    let sets := mergedSets a.boundSets b.boundSets
    if sets.isEmpty then Option.none
    else some (mk (c!"(" ++ a.rangeStr ++ c!")&(" ++ b.rangeStr ++ c!")") sets true
      (a.subtractFrom ++ b.subtractFrom))

/-- range/mod.rs:166-176 `union`. -/
def union (a b : VersionRange) : VersionRange :=
  mk (a.rangeStr ++ c!"|" ++ b.rangeStr) (a.boundSets ++ b.boundSets) true []

/-- range/mod.rs:250-264: the version inside a bound. -/
def boundVersion (b : Bound) : Option Version :=
  match b with
  | .ge v | .gt v | .le v | .lt v | .eq v | .ne v | .compatible v => some v
  | .any | .none => Option.none

/-- range/mod.rs:245-274 `collect_probe_versions_with_other`. -/
def probes (a b : VersionRange) : List Version :=
  ((a.boundSets ++ b.boundSets).flatMap fun bs => (bs.filterMap boundVersion).flatMap fun v =>
    v :: (Version.parse (v.asStr ++ c!".999999")).toList) ++
  [c!"0.0.1", c!"999.999.999"].filterMap Version.parse

/-- range/mod.rs:180-204 `subtract`. -/
def subtract (a b : VersionRange) : Option VersionRange :=
  if b.isAny then Option.none
  else if b.isEmpty then some a
  else if a.isEmpty then Option.none
  else
    let r := mk (c!"(" ++ a.rangeStr ++ c!")-(" ++ b.rangeStr ++ c!")") a.boundSets true (a.subtractFrom ++ [b])
    if (probes a b).any (fun v => r.contains v) then some r else Option.none

/-- range/mod.rs:220-237 `is_subset_of`. -/
def isSubsetOf (a b : VersionRange) : Bool :=
  if b.isAny then true
  else if a.isAny then b.isAny
  else if a.isEmpty then true
  else !((probes a b).any fun v => a.contains v && !b.contains v)

/-- range/mod.rs:240-242 `is_superset_of`. -/
def isSupersetOf (a b : VersionRange) : Bool := isSubsetOf b a

/-- range/mod.rs:21-34: JSON serialisation keeps `range_str` only; `#[serde(skip)]` fields are restored by
`Default` (`Vec::new()`, `false`). -/
def serdeRoundTrip (r : VersionRange) : VersionRange := mk r.rangeStr [] false []

end VersionRange

/-! ## The range parser (`range/parser.rs`) -/

/-- the operator characters tested with `starts_with` in parser.rs:26-30, 61-65 and 153 -/
def isOpChar (c : Char) : Bool := c == '>' || c == '<' || c == '=' || c == '!' || c == '~'
/-- "starts with an operator character" -/
def startsOp (s : Str) : Bool := match s with | c :: _ => isOpChar c | [] => false

/-- parser.rs:175-233 `parse_single_constraint`; `none` is `Err`. -/
def parseSingle (s : Str) : Option Bound :=
  let s := trim s
  if s.isEmpty || s == c!"*" then some .any
  else match s with
    | '>' :: '=' :: rest => (Version.parse (trim rest)).map .ge
    | '<' :: '=' :: rest => (Version.parse (trim rest)).map .le
    | '=' :: '=' :: rest => (Version.parse (trim rest)).map .eq
    | '!' :: '=' :: rest => (Version.parse (trim rest)).map .ne
    | '~' :: '=' :: rest => (Version.parse (trim rest)).map .compatible
    | '>' :: rest => (Version.parse (trim rest)).map .gt
    | '<' :: rest => (Version.parse (trim rest)).map .lt
    | s => (Version.parse s).map .eq

/-- parser.rs:146-151: the first non-space character of the rest. -/
def nextNonSpace (s : Str) : Option Char := (s.dropWhile (· == ' ')).head?

/-- parser.rs:137-172 `split_on_operator_boundaries`.  The index `i = j` jump over a block of spaces is
replaced by visiting those spaces one at a time: each has the same next non-space character, so it flushes
an already empty accumulator. `current` is kept in order. -/
def splitOps (current : Str) : Str → List Str
  | [] => if (trim current).isEmpty then [] else [trim current]
  | c :: cs =>
    if c == ' ' && (match nextNonSpace cs with | some n => isOpChar n | none => false) then
      (if (trim current).isEmpty then [] else [trim current]) ++ splitOps [] cs
    else splitOps (current ++ [c]) cs

/-- parser.rs:108-134 `split_constraint_parts`: the comma loop pushes the trimmed non-empty pieces. -/
def splitConstraintParts (s : Str) : List Str :=
  (((splitChar ',' s).map trim).filter (fun p => !p.isEmpty)).flatMap (splitOps [])

/-- parser.rs:58-86: expansion of the `+` shorthand. -/
def expandPlus (s : Str) : Str :=
  if s.contains '+' && !startsOp s then
    match splitOnce c!"+" s with
    | some (pre, suf) => if suf.isEmpty then c!">=" ++ pre else c!">=" ++ pre ++ c!"," ++ suf
    | none => s
  else s

/-- parser.rs:53-105 `parse_conjunction`; `none` is `Err`. -/
def parseConjunction (s : Str) : Option BoundSet :=
  if s.isEmpty || s == c!"*" then some [.any]
  else
    let parts := ((splitConstraintParts (expandPlus s)).map trim).filter (fun p => !p.isEmpty)
    match parts.mapM parseSingle with
    | none => none
    | some bounds => if bounds.isEmpty then some [.any] else some bounds

/-- parser.rs:39-48: the alternatives. -/
def parseAlternatives (s : Str) : Option (List BoundSet) :=
  (splitChar '|' s).mapM fun p => parseConjunction (trim p)

/-- parser.rs:8-49 `parse_range_str`.  The recursive call of the `a..b` form gets a string that starts with
`>=`, for which only the alternatives code applies, so the recursion is unrolled once. -/
def parseRangeStr (s : Str) : Option (List BoundSet) :=
  if s.isEmpty || s == c!"*" then some [[.any]]
  else if s == c!"empty" || s == c!"!*" then some [[.none]]
  else
    match splitOnce c!".." s with
    | some (left, right) =>
      if s.head? != some '.' && !left.isEmpty && !right.isEmpty && !startsOp left then
        parseAlternatives (c!">=" ++ trim left ++ c!",<" ++ trim right)
      else parseAlternatives s
    | none => parseAlternatives s

namespace VersionRange

/-- range/mod.rs:74-83 `parse`; `none` is `Err`. -/
def parse (s : Str) : Option VersionRange :=
  (parseRangeStr (trim s)).map fun bs => mk s bs true []

end VersionRange
end Rez
