import Verif.Model.Filter
/-!
# `rez-next-package-filter/src`: package filters kept as text
-/
namespace Rez.RuleFilter

/-- `Regex::new(text)`, another crate, with the match it gives; `none` is the error. -/
abbrev Engine := Str → Option (Str → Bool)

/-- A package with its description (rez-next-package/src/package/types.rs:8-84). -/
structure Pkg where
  base : Package
  description : Option Str

/-- rule.rs:84-92, 244-250: the fields that patterns look at (regexes only at `name` and `description`). -/
inductive Field where
  | name | version | description
deriving DecidableEq

/-- rule.rs:72-82, 228-240, 342-349, 447-456: the rules.  A regex is kept with its compiled form, a time is in
nanoseconds since the epoch. -/
inductive Rule where
  | glob (pattern : Str) (field : Field) (family : Option Str)
  | regex (pattern : Str) (compiled : Str → Bool) (field : Field) (family : Option Str)
  | range (range : VersionRange) (family : Option Str)
  | time (nanos : Int) (before : Bool) (family : Option Str)

/-- rule.rs:142-155: one character of a glob as a regular expression. -/
def globChar (c : Char) : Str :=
  if c = '*' then c!".*"
  else if c = '?' then c!"."
  else if c!".()[]{}|^$+".contains c then ['\\', c]
  else [c]

/-- rule.rs:138-158: the regular expression of a glob. -/
def globRegex (pattern : Str) : Str := c!"^" ++ pattern.flatMap globChar ++ c!"$"

/-- rule.rs:137-165 `matches_glob`. -/
def matchesGlob (e : Engine) (pattern text : Str) : Bool :=
  match e (globRegex pattern) with
  | some f => f text
  | none => false

/-- rule.rs:96-107 `GlobRule::new`. -/
def newGlob (pattern : Str) (field : Field) (family : Option Str) : Option Rule :=
  if pattern.isEmpty then none else some (.glob pattern field family)

/-- rule.rs:254-264 `RegexRule::new`. -/
def newRegex (e : Engine) (pattern : Str) (field : Field) (family : Option Str) : Option Rule :=
  (e pattern).map fun f => .regex pattern f field family

/-- rule.rs:353-361 `RangeRule::new`. -/
def newRange (text : Str) (family : Option Str) : Option Rule :=
  (VersionRange.parse text).map fun r => .range r family

/-- rule.rs:169-181, 303-315, 393-408, 517-537 `apply`. -/
def Rule.apply (e : Engine) (r : Rule) (p : Pkg) : Bool :=
  match r with
  | .glob pat .name _ => matchesGlob e pat p.base.name
  | .glob _ .version _ => false
  | .glob pat .description _ => matchesGlob e pat (p.description.getD [])
  | .regex _ f .description _ => f (p.description.getD [])
  | .regex _ f _ _ => f p.base.name
  | .range rg family =>
    if family.isSome && family != some p.base.name then false
    else match p.base.version with
      | some v => rg.contains v
      | none => false
  | .time nanos before _ =>
    match p.base.timestamp with
    | some ts => if ts < 0 then false else if before then decide (ts * 10 ^ 9 < nanos) else decide (ts * 10 ^ 9 > nanos)
    | none => false

/-- rule.rs:201-206, 335-338: the name of a field in a text. -/
def Field.text : Field → Str
  | .name => c!"name"
  | .version => c!"version"
  | .description => c!"description"

/-- rule.rs:549-553: whole seconds since the epoch, 0 for earlier times. -/
def secs (nanos : Int) : Nat := (nanos / 10 ^ 9).toNat

/-- rule.rs:196-210, 330-342, 423-431, 548-556 `to_pod`: kind and pattern. -/
def Rule.toPod : Rule → Str × Str
  | .glob p f _ => (c!"glob", f.text ++ c!":" ++ p)
  | .regex p _ f _ => (c!"regex", f.text ++ c!":" ++ p)
  | .range r family =>
    (c!"range", match family with
      | some fam => fam ++ c!"-" ++ r.rangeStr
      | none => r.rangeStr)
  | .time nanos before _ => (if before then c!"before" else c!"after", decimal (secs nanos))

/-- `strip_prefix(pre)` and `strip_suffix(')')` in turn. -/
def inner (pre s : Str) : Option Str :=
  if pre.isPrefixOf s then
    let r := s.drop pre.length
    if r.getLast? == some ')' then some r.dropLast else none
  else none

/-- rule.rs:119-132, 274-287: the field and the pattern in the parentheses; `none` is the error. -/
def fieldAndPattern (fields : List Field) (s : Str) : Option (Field × Str) :=
  match splitOnce c!":" s with
  | some (f, p) => (fields.find? fun x => x.text == f).map fun x => (x, p)
  | none => some (.name, s)

/-- rule.rs:112-135 `GlobRule::parse_rule`. -/
def parseGlob (txt : Str) : Option Rule :=
  (inner c!"glob(" txt).bind fun s => (fieldAndPattern [.name, .version, .description] s).bind fun x => newGlob x.2 x.1 none

/-- rule.rs:269-290 `RegexRule::parse_rule`. -/
def parseRegex (e : Engine) (txt : Str) : Option Rule :=
  (inner c!"regex(" txt).bind fun s => (fieldAndPattern [.name, .description] s).bind fun x => newRegex e x.2 x.1 none

/-- rule.rs:377-390: a range, after a family if that leaves a range. -/
def parseRangeInner (s : Str) : Option Rule :=
  match splitOnce c!"-" s with
  | some (fam, rest) =>
    match VersionRange.parse rest with
    | some r => some (.range r (some fam))
    | none => newRange s none
  | none => newRange s none

/-- rule.rs:369-391 `RangeRule::parse_rule`. -/
def parseRange (txt : Str) : Option Rule :=
  if c!"range(".isPrefixOf txt then (inner c!"range(" txt).bind parseRangeInner else parseRangeInner txt

/-- rule.rs:497-512: the number of seconds. -/
def parseSecs (s : Str) (before : Bool) : Option Rule :=
  match parseI64 s with
  | some t => if t < 0 then none else some (.time (t * 10 ^ 9) before none)
  | none => none

/-- rule.rs:472-515 `TimestampRule::parse_rule`, called with one of the two prefixes. -/
def parseTime (txt : Str) : Option Rule :=
  if c!"before(".isPrefixOf txt then (inner c!"before(" txt).bind fun s => parseSecs s true
  else if c!"after(".isPrefixOf txt then (inner c!"after(" txt).bind fun s => parseSecs s false
  else none

/-- rule.rs:580-607 `parse_rule`. -/
def parseRule (e : Engine) (txt : Str) : Option Rule :=
  if c!"glob(".isPrefixOf txt then parseGlob txt
  else if c!"regex(".isPrefixOf txt then parseRegex e txt
  else if c!"range(".isPrefixOf txt then parseRange txt
  else if c!"before(".isPrefixOf txt then parseTime txt
  else if c!"after(".isPrefixOf txt then parseTime txt
  else if txt.contains '*' || txt.contains '?' then newGlob txt .name none
  else parseRange txt

/-- filter.rs:18-40 `struct PackageFilter`: rules as pairs of texts (the hash cache is omitted). -/
structure PackageFilter where
  exclusions : List (Str × Str)
  inclusions : List (Str × Str)

/-- filter.rs:44-50 `new`. -/
def PackageFilter.new : PackageFilter := ⟨[], []⟩

/-- filter.rs:134, 204: `type(pattern)`. -/
def podText (pod : Str × Str) : Str := pod.1 ++ c!"(" ++ pod.2 ++ c!")"

/-- filter.rs:59-61, 64-69, 201-206: the stored rule parses and matches. -/
def podMatches (e : Engine) (p : Pkg) (pod : Str × Str) : Bool :=
  match parseRule e (podText pod) with
  | some r => r.apply e p
  | none => false

/-- filter.rs:56-79 `excludes`: the rule that excludes the package. -/
def PackageFilter.excludes (e : Engine) (f : PackageFilter) (p : Pkg) : Option (Str × Str) :=
  f.exclusions.find? fun pod => podMatches e p pod && !f.inclusions.any (podMatches e p)

/-- filter.rs:84-96 `includes`. -/
def PackageFilter.includes (e : Engine) (f : PackageFilter) (p : Pkg) : Bool :=
  if f.inclusions.any (podMatches e p) then true else (f.excludes e p).isNone

/-- filter.rs:99-103, 194-197 `add_exclusion`. -/
def PackageFilter.addExclusion (f : PackageFilter) (r : Rule) : PackageFilter :=
  { f with exclusions := f.exclusions ++ [r.toPod] }

/-- filter.rs:106-110 `add_inclusion`. -/
def PackageFilter.addInclusion (f : PackageFilter) (r : Rule) : PackageFilter :=
  { f with inclusions := f.inclusions ++ [r.toPod] }

/-- filter.rs:129-153 `to_pod` (a missing entry of the map is an empty list). -/
def PackageFilter.toPod (f : PackageFilter) : List Str × List Str := (f.exclusions.map podText, f.inclusions.map podText)

/-- filter.rs:113-117, 159-163: add rules from texts, up to the first that is bad. -/
def addAll (e : Engine) (add : PackageFilter → Rule → PackageFilter) : PackageFilter → List Str → Option PackageFilter
  | f, [] => some f
  | f, s :: rest => (parseRule e s).bind fun r => addAll e add (add f r) rest

/-- filter.rs:156-172 `from_pod`. -/
def fromPod (e : Engine) (pod : List Str × List Str) : Option PackageFilter :=
  (addAll e PackageFilter.addExclusion PackageFilter.new pod.1).bind fun f =>
    addAll e PackageFilter.addInclusion f pod.2

end Rez.RuleFilter
