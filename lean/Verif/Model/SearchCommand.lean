import Verif.Model.Commands
import Verif.Model.Search
import Verif.Model.Util
/-!
# The search command: /repo/src/cli/commands/search_v2

The repositories are parameters: the names they list and the packages they find for a name.  So are `to_lowercase`, compiling
and running a regular expression, reading a date, `sort_by` (which may panic on a comparison that is no total order) and the
order in which a map gives its values.  Scores are sums of small whole numbers, which `f64` holds exactly; here they are natural
numbers.  Left out: choosing the repositories (`mod.rs`), the repository name of a result (always `default`), padding of columns
and the date line of the detailed format.
-/
namespace Rez.SearchCommand
open Rez

/-- The fields of a package the command reads. -/
structure Pkg where
  name : Str
  version : Option Version
  description : Option Str
  tools : List Str
  requires : List Str
  variants : List (List Str)
  timestamp : Option Int
deriving DecidableEq

/-- types.rs:10-77 `SearchArgs`. -/
structure Args where
  query : Str
  description : Bool
  tools : Bool
  requirements : Bool
  caseSensitive : Bool
  regex : Bool
  latestOnly : Bool
  limit : Nat
  format : Str
  sort : Str
  verbose : Bool
  newerThan : Option Str
  olderThan : Option Str
  searchType : Str
  hasVariant : Option Str

/-- types.rs:80-86 `SearchResult`. -/
structure Res where
  package : Pkg
  score : Nat
  fields : List Str
deriving DecidableEq

/-- What the rest of the program, the standard library and the system answer. -/
structure World where
  lower : Str → Str
  regex : Str → Option (Str → Bool)
  iso : Str → Option Int
  /-- Are overflow checks compiled in? -/
  checks : Bool
  now : Int
  listed : Outcome (List Str)
  find : Str → Outcome (List Pkg)
  sort : (Res → Res → Ordering) → List Res → Outcome (List Res)
  values : List (Str × Res) → List Res
  debug : Version → Str

/-! ## matcher.rs -/

/-- matcher.rs:10-17 `get_package_timestamp`. -/
def stamp (p : Pkg) : Int := p.timestamp.getD 0

/-- matcher.rs:28-39: text as it is compared. -/
def fold (w : World) (a : Args) (s : Str) : Str := if a.caseSensitive then s else w.lower s

/-- matcher.rs:41-47, 62-70: does the text match, as a regular expression or literally? -/
def hit (w : World) (a : Args) (text : Str) : Bool :=
  if a.regex then
    match w.regex (fold w a a.query) with
    | some run => run (fold w a text)
    | none => false
  else containsStr (fold w a text) (fold w a a.query)

/-- matcher.rs:133-141: does the text contain the query literally? -/
def has (w : World) (a : Args) (text : Str) : Bool := containsStr (fold w a text) (fold w a a.query)

/-- matcher.rs:41-52: the name. -/
def nameHit (w : World) (a : Args) (p : Pkg) : List (Str × Nat) :=
  if hit w a p.name then
    [(c!"name", if a.regex then 10 else if fold w a p.name = fold w a a.query then 10 else 5)]
  else []

/-- matcher.rs:54-76: the description. -/
def descriptionHit (w : World) (a : Args) (p : Pkg) : List (Str × Nat) :=
  match a.description, p.description with
  | true, some d => if hit w a d then [(c!"description", 3)] else []
  | _, _ => []

/-- matcher.rs:78-101: the tools. -/
def toolsHit (w : World) (a : Args) (p : Pkg) : List (Str × Nat) :=
  if a.tools && p.tools.any (hit w a) then [(c!"tools", 2)] else []

/-- matcher.rs:103-126: the requirements. -/
def requirementsHit (w : World) (a : Args) (p : Pkg) : List (Str × Nat) :=
  if a.requirements && p.requires.any (hit w a) then [(c!"requirements", 1)] else []

/-- matcher.rs:128-156: the fields looked at if none is asked for. -/
def defaultHits (w : World) (a : Args) (p : Pkg) : List (Str × Nat) :=
  if !a.description && !a.tools && !a.requirements then
    (match p.description with
      | some d => if has w a d then [(c!"description", 2)] else []
      | none => []) ++
    (if p.tools.any (has w a) then [(c!"tools", 1)] else [])
  else []

/-- matcher.rs:20-168 `evaluate_package_match`. -/
def evaluate (w : World) (a : Args) (p : Pkg) : Option Res :=
  let hits := nameHit w a p ++ descriptionHit w a p ++ toolsHit w a p ++ requirementsHit w a p ++ defaultHits w a p
  let score := (hits.map (·.2)).sum
  if score > 0 then some ⟨p, score, hits.map (·.1)⟩ else none

/-! ## filter.rs -/

/-- filter.rs:30-44: is the package left in by its time? -/
def inTime (newer older : Option Int) (p : Pkg) : Bool :=
  (match newer with
    | some t => decide (t < stamp p)
    | none => true) &&
  (match older with
    | some t => decide (stamp p < t)
    | none => true)

/-- filter.rs:59-69, 77-87: does a variant have a requirement that contains the text? -/
def variantHas (w : World) (req : Str) (p : Pkg) : Bool :=
  p.variants.any fun v => v.any fun r => containsStr (w.lower r) (w.lower req)

/-- filter.rs:46-91: is the package left in by the type that is searched? -/
def inType (w : World) (a : Args) (p : Pkg) : Bool :=
  if a.searchType = c!"family" then true
  else
    !(decide (a.searchType = c!"variant") && p.variants.isEmpty) &&
    match a.hasVariant with
    | some req => variantHas w req p
    | none => true

/-- filter.rs:28-96: the results among the packages of a name. -/
def select (w : World) (a : Args) (newer older : Option Int) (ps : List Pkg) : List Res :=
  ps.filterMap fun p => if inTime newer older p && inType w a p then evaluate w a p else none

/-- filter.rs:25-97: the results of the names. -/
def collect (w : World) (a : Args) (newer older : Option Int) : List Str → Outcome (List Res)
  | [] => .ok []
  | n :: ns =>
    match w.find n with
    | .err => .err
    | .panic => .panic
    | .ok ps =>
      match collect w a newer older ns with
      | .ok rs => .ok (select w a newer older ps ++ rs)
      | .err => .err
      | .panic => .panic

/-- filter.rs:102-111: the result a family keeps. -/
def familyStep (m : List (Str × Res)) (r : Res) : List (Str × Res) :=
  match mget m r.package.name with
  | some e => if r.score > e.score then mset m r.package.name r else m
  | none => mset m r.package.name r

/-- filter.rs:122-129, 145-147: by name. -/
def byName (a b : Res) : Ordering := cmpStr a.package.name b.package.name

/-- filter.rs:131-137: by version, the latest first. -/
def byVersion (a b : Res) : Ordering :=
  match a.package.version, b.package.version with
  | some v, some u => u.cmp v
  | some _, none => .lt
  | none, some _ => .gt
  | none, none => .eq

/-- filter.rs:139-144: by score, the highest first. -/
def byScore (a b : Res) : Ordering := compare b.score a.score

/-- filter.rs:121-150 `sort_results`. -/
def order (sort : Str) : Res → Res → Ordering :=
  if sort = c!"version" then byVersion else if sort = c!"score" then byScore else byName

/-- filter.rs:160-173: is the second result kept rather than the first? -/
def later (e r : Res) : Bool :=
  match r.package.version, e.package.version with
  | some v, some u => v.cmp u == .gt
  | some _, none => true
  | _, _ => false

/-- filter.rs:156-177: the result a name keeps. -/
def latestStep (m : List (Str × Res)) (r : Res) : List (Str × Res) :=
  match mget m r.package.name with
  | some e => if later e r then mset m r.package.name r else m
  | none => mset m r.package.name r

/-- filter.rs:153-180 `filter_latest_versions`. -/
def latest (w : World) (rs : List Res) : List Res := w.values (rs.foldl latestStep [])

/-- filter.rs:19-20: a date, if it is given and can be read. -/
def bound (w : World) : Option Str → Outcome (Option Int)
  | none => .ok none
  | some s => Commands.timestamp w.iso w.checks w.now s

/-- filter.rs:99-118: from the results of all packages to those that are shown. -/
def arrange (w : World) (a : Args) (all : List Res) : Outcome (List Res) :=
  let rs := if a.searchType = c!"family" then w.values (all.foldl familyStep []) else all
  match w.sort (order a.sort) rs with
  | .err => .err
  | .panic => .panic
  | .ok rs => .ok ((if a.latestOnly then latest w rs else rs).take a.limit)

/-- filter.rs:13-118 `perform_search`. -/
def search (w : World) (a : Args) : Outcome (List Res) :=
  match bound w a.newerThan with
  | .err => .err
  | .panic => .panic
  | .ok newer =>
    match bound w a.olderThan with
    | .err => .err
    | .panic => .panic
    | .ok older =>
      match w.listed with
      | .err => .err
      | .panic => .panic
      | .ok names =>
        match collect w a newer older names with
        | .err => .err
        | .panic => .panic
        | .ok all => arrange w a all

/-! ## display.rs -/

/-- What is printed. -/
inductive Out where
  /-- display.rs:13-14: `[]`. -/
  | emptyList
  /-- display.rs:16: nothing found for this query. -/
  | nothing (query : Str)
  /-- display.rs:22: so many found. -/
  | found (n : Nat)
  /-- display.rs:62-70: a row of the table. -/
  | verbose (name version : Str) (score : Nat) (fields : Str)
  /-- display.rs:72-88: a row of the table. -/
  | row (name version description : Str)
  /-- display.rs:96-113: an object of the list. -/
  | json (name : Str) (version : Option Str) (description : Option Str) (tools requires : List Str) (score : Nat)
      (fields : List Str) (timestamp : Option Int)
  /-- display.rs:121-156: a package in detail. -/
  | detail (name : Str) (version description : Option Str) (tools requires : Option Str) (score : Nat) (fields : Str)
  /-- display.rs:31-35: an unknown format. -/
  | unknown (format : Str)
deriving DecidableEq

/-- display.rs:53-58: the version in a table. -/
def shownVersion (w : World) (p : Pkg) : Str := (p.version.map w.debug).getD c!"unknown"

/-- display.rs:73-84: the description in a table: `&d[..37]` panics if byte 37 is not at the start of a character. -/
def shortened (p : Pkg) : Outcome Str :=
  match p.description with
  | none => .ok c!"No description"
  | some d =>
    if byteLen d > 37 then
      match Util.prefixBytes 37 d with
      | some t => .ok (t ++ c!"...")
      | none => .panic
    else .ok d

/-- display.rs:52-89: a row. -/
def tableRow (w : World) (a : Args) (r : Res) : Outcome Out :=
  if a.verbose then .ok (.verbose r.package.name (shownVersion w r.package) r.score (joinWith c!", " r.fields))
  else
    match shortened r.package with
    | .ok d => .ok (.row r.package.name (shownVersion w r.package) d)
    | .err => .err
    | .panic => .panic

/-- display.rs:40-92 `display_table_format`: what is printed, and whether it panicked. -/
def table (w : World) (a : Args) : List Res → List Out × Bool
  | [] => ([], false)
  | r :: rs =>
    match tableRow w a r with
    | .ok o => let t := table w a rs; (o :: t.1, t.2)
    | _ => ([], true)

/-- display.rs:96-113: an object. -/
def jsonRow (w : World) (r : Res) : Out :=
  .json r.package.name (r.package.version.map w.debug) r.package.description r.package.tools r.package.requires r.score
    r.fields r.package.timestamp

/-- Joined, if there are any. -/
def someJoined (l : List Str) : Option Str := if l.isEmpty then none else some (joinWith c!", " l)

/-- display.rs:121-156: a package in detail. -/
def detailRow (w : World) (r : Res) : Out :=
  .detail r.package.name (r.package.version.map w.debug) r.package.description (someJoined r.package.tools)
    (someJoined r.package.requires) r.score (joinWith c!", " r.fields)

/-- `eq_ignore_ascii_case("json")`. -/
def isJson (format : Str) : Bool := format.map lowerChar == c!"json"

/-- display.rs:9-38 `display_search_results`: what is printed, and whether it panicked. -/
def display (w : World) (a : Args) (rs : List Res) : List Out × Bool :=
  if rs.isEmpty then ([if isJson a.format then .emptyList else .nothing a.query], false)
  else if isJson a.format then (rs.map (jsonRow w), false)
  else if a.format = c!"table" then
    let t := table w a rs
    (.found rs.length :: t.1, t.2)
  else if a.format = c!"detailed" then (.found rs.length :: rs.map (detailRow w), false)
  else ([.found rs.length, .unknown a.format], false)

end Rez.SearchCommand
