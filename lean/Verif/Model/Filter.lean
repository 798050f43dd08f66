import Verif.Model.Graph
/-!
# `rez-next-package/src/filter.rs`: package filters
-/
namespace Rez.Filter

/-- `format!("{}", n)` for a signed integer. -/
def intText (n : Int) : Str := if n < 0 then '-' :: decimal n.natAbs else decimal n.natAbs

/-- The pattern engines, which are other crates: `glob::Pattern::new` and `regex::Regex::new`, each with the match
that it gives; `none` is the error. -/
structure Engine where
  glob : Str → Option (Str → Bool)
  regex : Str → Option (Str → Bool)

/-- filter.rs:34-275: the rules, with their compiled form. -/
inductive Rule where
  | glob (pattern : Str) (compiled : Str → Bool)
  | regex (pattern : Str) (compiled : Str → Bool)
  | range (requirement : Requirement)
  | time (timestamp : Int) (inclusive before : Bool)

/-- filter.rs:46-52, 93-99, 138-142: the constructors that can fail. -/
def Rule.newGlob (e : Engine) (p : Str) : Option Rule := (e.glob p).map (.glob p)
def Rule.newRegex (e : Engine) (p : Str) : Option Rule := (e.regex p).map (.regex p)
def Rule.newRange (s : Str) : Option Rule := (Requirement.parse s).map .range

/-- filter.rs:56-58, 103-105, 146-156, 230-246 `matches`. -/
def Rule.matches (r : Rule) (p : Package) : Bool :=
  match r with
  | .glob _ f => f p.name
  | .regex _ f => f p.name
  | .range q =>
    match p.version, q.constraint with
    | some v, some c => c.satisfied v
    | _, _ => false
  | .time t inclusive before =>
    match p.timestamp with
    | some ts =>
      if before then (if inclusive then decide (ts ≤ t) else decide (ts < t))
      else (if inclusive then decide (ts ≥ t) else decide (ts > t))
    | none => false

/-- filter.rs:64-66, 111-113, 162-164, 252-256 `to_pod`. -/
def Rule.toPod : Rule → Str
  | .glob p _ => c!"glob(" ++ p ++ c!")"
  | .regex p _ => c!"regex(" ++ p ++ c!")"
  | .range q => c!"range(" ++ q.display ++ c!")"
  | .time t inclusive before =>
    c!"timestamp(" ++ (if before then c!"before" else c!"after") ++ (if inclusive then c!":" else []) ++ intText t ++ c!")"

/-- `s.starts_with(pre) && s.ends_with(')')`, with the text in between. -/
def between (pre s : Str) : Option Str :=
  if pre.isPrefixOf s && s.getLast? == some ')' then some (s.drop pre.length).dropLast else none

/-- filter.rs:529-546: the text inside `timestamp(…)`; `none` if it is not of the form `kind:…` with a known kind, and
`some none` if the number is bad. -/
def parseTime (inner : Str) : Option (Option Rule) :=
  match splitOnce c!":" inner with
  | none => none
  | some (kind, num) =>
    match parseI64 num with
    | none => some none
    | some t =>
      if kind = c!"before" then some (some (.time t false true))
      else if kind = c!"after" then some (some (.time t false false))
      else none

/-- filter.rs:548-553: the auto-detected glob. -/
def parseAuto (e : Engine) (s : Str) : Option Rule :=
  if s.contains '*' || s.contains '?' || (s.contains '[' && s.contains ']') then Rule.newGlob e s else none

/-- filter.rs:503-556 `parse_rule`. -/
def parseRule (e : Engine) (text : Str) : Option Rule :=
  let s := trim text
  match between c!"glob(" s with
  | some p => Rule.newGlob e p
  | none =>
    match between c!"regex(" s with
    | some p => Rule.newRegex e p
    | none =>
      match between c!"range(" s with
      | some q => Rule.newRange q
      | none =>
        match (between c!"timestamp(" s).bind parseTime with
        | some r => r
        | none => parseAuto e s

/-- filter.rs:284-287 `struct PackageFilter`. -/
structure PackageFilter where
  excludes : List (Option Str × List Rule)
  includes : List (Option Str × List Rule)

/-- filter.rs:318-323 `new`. -/
def PackageFilter.new : PackageFilter := ⟨[], []⟩

/-- `entry(family).or_default().push(rule)`. -/
def push (m : List (Option Str × List Rule)) (family : Option Str) (r : Rule) : List (Option Str × List Rule) :=
  mset m family ((mget m family).getD [] ++ [r])

/-- filter.rs:326-331 `add_exclusion`. -/
def PackageFilter.addExclusion (f : PackageFilter) (family : Option Str) (r : Rule) : PackageFilter :=
  { f with excludes := push f.excludes family r }

/-- filter.rs:334-339 `add_inclusion`. -/
def PackageFilter.addInclusion (f : PackageFilter) (family : Option Str) (r : Rule) : PackageFilter :=
  { f with includes := push f.includes family r }

/-- filter.rs:350-364: the rules of a family, then the global ones. -/
def rulesFor (m : List (Option Str × List Rule)) (family : Str) : List Rule :=
  (mget m (some family)).getD [] ++ (mget m none).getD []

/-- filter.rs:347-378 `excludes`. -/
def PackageFilter.excluded (f : PackageFilter) (p : Package) : Bool :=
  if (rulesFor f.excludes p.name).any (fun r => r.matches p) = false then false
  else !(rulesFor f.includes p.name).any fun r => r.matches p

/-- filter.rs:381-383 `filter_packages`. -/
def PackageFilter.filterPackages (f : PackageFilter) (ps : List Package) : List Package :=
  ps.filter fun p => !f.excluded p

/-- filter.rs:482-484 `PackageFilterList::excludes`. -/
def listExcluded (fs : List PackageFilter) (p : Package) : Bool := fs.any fun f => f.excluded p

/-- filter.rs:487-489 `PackageFilterList::filter_packages`. -/
def listFilterPackages (fs : List PackageFilter) (ps : List Package) : List Package :=
  ps.filter fun p => !listExcluded fs p

/-- filter.rs:386-410 `to_pod`: the two entries of the map (a missing entry is an empty list).  `order` is the order
in which a map is iterated. -/
def PackageFilter.toPod (order : List (Option Str × List Rule) → List (Option Str × List Rule)) (f : PackageFilter) :
    List Str × List Str :=
  ((order f.excludes).flatMap fun x => x.2.map Rule.toPod, (order f.includes).flatMap fun x => x.2.map Rule.toPod)

/-- filter.rs:416-424, 427-435: parse a list of rules; `none` is the error. -/
def parseAll (e : Engine) : List Str → Option (List Rule)
  | [] => some []
  | s :: rest => (parseRule e s).bind fun r => (parseAll e rest).map fun rs => r :: rs

/-- filter.rs:413-439 `from_pod`. -/
def fromPod (e : Engine) (pod : List Str × List Str) : Option PackageFilter :=
  (parseAll e pod.1).bind fun xs => (parseAll e pod.2).map fun is =>
    is.foldl (fun f r => f.addInclusion none r) (xs.foldl (fun f r => f.addExclusion none r) PackageFilter.new)

end Rez.Filter
