import Verif.Model.Range
/-!
# Model of `rez-next-package/src/requirement/` (`types.rs`, `parser.rs`, `display.rs`) and of
`rez-next-package/src/package/requirement.rs`
-/
namespace Rez

/-- requirement/types.rs:59-89 `enum VersionConstraint`. -/
inductive VersionConstraint where
  | exact (v : Version)
  | greaterThan (v : Version)
  | greaterThanOrEqual (v : Version)
  | lessThan (v : Version)
  | lessThanOrEqual (v : Version)
  | compatible (v : Version)
  | range (min max : Version)
  | multiple (cs : List VersionConstraint)
  | alternative (cs : List VersionConstraint)
  | exclude (vs : List Version)
  | wildcard (pattern : Str)
  | prefixOf (v : Version)
  | any

/-- requirement/types.rs:337-354 the loop of `cmp_at_depth`. -/
def cmpParts : List Str → List Str → Ordering
  | v :: vs, c :: cs =>
    (match parseU64 v, parseU64 c with
     | some vn, some cn => compare vn cn
     | _, _ => cmpStr v c).then (cmpParts vs cs)
  | _, _ => .eq

/-- requirement/types.rs:328-355 `cmp_at_depth`. -/
def cmpAtDepth (version constraint : Version) : Ordering :=
  cmpParts (splitChar '.' version.asStr) (splitChar '.' constraint.asStr)

/-- requirement/types.rs:259-288 the `Compatible` arm, on the dot-separated parts. -/
def compatParts : List Str → List Str → Bool
  | _, [] => true
  | [], _ :: _ => false
  | v :: _, [c] =>
    (match parseU64 v, parseU64 c with
     | some vn, some cn => decide (vn ≥ cn)
     | _, _ => cmpStr v c != .lt)
  | v :: vs, c :: d :: cs => v == c && compatParts vs (d :: cs)

/-- requirement/types.rs:304-322 `matches_wildcard`, on the dot-separated parts of pattern and version. -/
def wildcardParts : List Str → List Str → Bool
  | [], vs => vs.isEmpty
  | p :: ps, vs =>
    if p == c!"*" then true
    else match vs with
      | [] => false
      | v :: vs => if p != v then false else wildcardParts ps vs

namespace VersionConstraint
mutual
/-- requirement/types.rs:240-301 `VersionConstraint::is_satisfied_by`. -/
def satisfied : VersionConstraint → Version → Bool
  | exact v, w => cmpAtDepth w v == .eq
  | greaterThan v, w => cmpAtDepth w v == .gt
  | greaterThanOrEqual v, w => cmpAtDepth w v == .gt || cmpAtDepth w v == .eq
  | lessThan v, w => cmpAtDepth w v == .lt
  | lessThanOrEqual v, w => cmpAtDepth w v == .lt || cmpAtDepth w v == .eq
  | compatible v, w =>
    if (splitChar '.' w.asStr).length < (splitChar '.' v.asStr).length then false
    else compatParts (splitChar '.' w.asStr) (splitChar '.' v.asStr)
  | range lo hi, w => w.ge lo && w.lt hi
  | multiple cs, w => satisfiedAll cs w
  | alternative cs, w => satisfiedAny cs w
  | exclude vs, w => !vs.any (fun v => w.eqv v)
  | wildcard p, w => wildcardParts (splitChar '.' p) (splitChar '.' w.asStr)
  | prefixOf p, w => w.hasPrefix p
  | any, _ => true
/-- requirement/types.rs:291 `constraints.iter().all(..)`. -/
def satisfiedAll : List VersionConstraint → Version → Bool
  | [], _ => true
  | c :: cs, w => satisfied c w && satisfiedAll cs w
/-- requirement/types.rs:294 `constraints.iter().any(..)`. -/
def satisfiedAny : List VersionConstraint → Version → Bool
  | [], _ => false
  | c :: cs, w => satisfied c w || satisfiedAny cs w
end

/-- requirement/types.rs:358-370 `and`. -/
def and : VersionConstraint → VersionConstraint → VersionConstraint
  | multiple cs, other => multiple (cs ++ [other])
  | self, multiple cs => multiple (self :: cs)
  | self, other => multiple [self, other]

/-- requirement/types.rs:373-387 `or`. -/
def or : VersionConstraint → VersionConstraint → VersionConstraint
  | alternative cs, other => alternative (cs ++ [other])
  | self, alternative cs => alternative (self :: cs)
  | self, other => alternative [self, other]

mutual
/-- requirement/display.rs:56-88 `Display for VersionConstraint`. -/
def display : VersionConstraint → Str
  | exact v => c!"==" ++ v.asStr
  | greaterThan v => c!">" ++ v.asStr
  | greaterThanOrEqual v => c!">=" ++ v.asStr
  | lessThan v => c!"<" ++ v.asStr
  | lessThanOrEqual v => c!"<=" ++ v.asStr
  | compatible v => c!"~=" ++ v.asStr
  | range lo hi => c!">=" ++ lo.asStr ++ c!",<" ++ hi.asStr
  | multiple cs => joinWith c!"," (displayAll cs)
  | alternative cs => c!"(" ++ joinWith c!" || " (displayAll cs) ++ c!")"
  | exclude vs => joinWith c!"," (vs.map fun v => c!"!=" ++ v.asStr)
  | wildcard p => c!"==" ++ p
  | prefixOf v => c!"-" ++ v.asStr
  | any => []
/-- the display of each element (display.rs:69, 73) -/
def displayAll : List VersionConstraint → List Str
  | [] => []
  | c :: cs => display c :: displayAll cs
end
end VersionConstraint

/-- requirement/types.rs:37-46 `struct PlatformCondition`. -/
structure PlatformCondition where
  platform : Str
  arch : Option Str
  negate : Bool
deriving DecidableEq

/-- requirement/types.rs:48-57 `struct EnvCondition`. -/
structure EnvCondition where
  varName : Str
  expected : Option Str
  negate : Bool
deriving DecidableEq

/-- requirement/types.rs:8-35 `struct Requirement` (`conditional_expression` is never set by the parser nor
read, and is omitted). -/
structure Requirement where
  name : Str
  constraint : Option VersionConstraint
  weak : Bool
  conflict : Bool
  platforms : List PlatformCondition
  envs : List EnvCondition
  ns : Option Str

namespace Requirement

/-- requirement/types.rs:135-140 `is_satisfied_by`. -/
def satisfiedBy (r : Requirement) (w : Version) : Bool :=
  match r.constraint with
  | none => true
  | some c => c.satisfied w

/-- requirement/types.rs:149-155: one platform condition, before negation. -/
def platformHit (c : PlatformCondition) (platform : Str) (arch : Option Str) : Bool :=
  c.platform == platform && (match c.arch with | none => true | some a => arch == some a)

/-- requirement/types.rs:148-166 the loop of `is_platform_satisfied`. -/
def platformLoop (all : List PlatformCondition) : List PlatformCondition → Str → Option Str → Bool
  | [], _, _ => all.all (fun c => c.negate)
  | c :: cs, p, a =>
    if c.negate then
      if platformHit c p a then false else platformLoop all cs p a
    else if platformHit c p a then true else platformLoop all cs p a

/-- requirement/types.rs:143-167 `is_platform_satisfied`. -/
def platformSatisfied (r : Requirement) (p : Str) (a : Option Str) : Bool :=
  if r.platforms.isEmpty then true else platformLoop r.platforms r.platforms p a

/-- requirement/types.rs:176-181: one environment condition, before negation; `env` is the map lookup. -/
def envHit (c : EnvCondition) (env : Str → Option Str) : Bool :=
  match c.expected with
  | some e => env c.varName == some e
  | none => (env c.varName).isSome

/-- requirement/types.rs:170-193 `is_env_satisfied`. -/
def envSatisfied (r : Requirement) (env : Str → Option Str) : Bool :=
  r.envs.all fun c => if c.negate then !envHit c env else envHit c env

end Requirement

/-! ## Display (`requirement/display.rs`) -/

/-- display.rs:31-44. -/
def PlatformCondition.display (c : PlatformCondition) : Str :=
  c!"platform" ++ (if c.negate then c!"!=" else c!"==") ++ c!"'" ++ c.platform ++ c!"'" ++
    (match c.arch with | none => [] | some a => c!" and arch=='" ++ a ++ c!"'")

/-- display.rs:46-54. -/
def EnvCondition.display (c : EnvCondition) : Str :=
  match c.expected with
  | some v => c!"env." ++ c.varName ++ (if c.negate then c!"!=" else c!"==") ++ c!"'" ++ v ++ c!"'"
  | none => c!"env." ++ c.varName

/-- display.rs:21-26: `[` condition `]`. -/
def bracket (s : Str) : Str := c!"[" ++ s ++ c!"]"

/-- display.rs:7-29 `Display for Requirement`. -/
def Requirement.display (r : Requirement) : Str :=
  (if r.conflict then c!"!" else if r.weak then c!"~" else []) ++
  (match r.ns with | some n => n ++ c!"::" | none => []) ++
  r.name ++
  (match r.constraint with | some c => c.display | none => []) ++
  (r.platforms.flatMap fun c => bracket c.display) ++
  (r.envs.flatMap fun c => bracket c.display)

/-! ## Parser (`requirement/parser.rs`) -/

/-- the regex class `[a-zA-Z0-9_\-\.]` of parser.rs:336-338 -/
def nameChar (c : Char) : Bool := isTok c || c == '-' || c == '.'

/-- The regex alternation `(==|>=|<=|>|<|~=)(.+)$` (parser.rs:310, 336) applied to a text: the operators in
order, each followed by a non-empty text without newline. -/
def splitOp (s : Str) : Option (Str × Str) :=
  let ok (r : Str) : Bool := !r.isEmpty && !r.contains '\n'
  [c!"==", c!">=", c!"<=", c!">", c!"<", c!"~="].findSome? fun op =>
    if op.isPrefixOf s && ok (s.drop op.length) then some (op, s.drop op.length) else none

/-- parser.rs:336 `basic_version`: the name is the longest run of name characters, because no operator
character is a name character. -/
def matchBasic (s : Str) : Option (Str × Str × Str) :=
  let name := s.takeWhile nameChar
  if name.isEmpty then none
  else (splitOp (s.dropWhile nameChar)).map fun (op, v) => (name, op, v)

/-- parser.rs:337 `namespace`: `^([name]+)::([name]+.*)$`. -/
def matchNamespace (s : Str) : Option (Str × Str) :=
  let name := s.takeWhile nameChar
  match s.dropWhile nameChar with
  | ':' :: ':' :: c :: rest =>
    if !name.isEmpty && nameChar c && !rest.contains '\n' then some (name, c :: rest) else none
  | _ => none

/-- parser.rs:338 `wildcard`: `^([name]+)==(.+\*.*)$`. -/
def matchWildcard (s : Str) : Option (Str × Str) :=
  let name := s.takeWhile nameChar
  match s.dropWhile nameChar with
  | '=' :: '=' :: c :: rest =>
    if !name.isEmpty && rest.contains '*' && !(c :: rest).contains '\n' then some (name, c :: rest) else none
  | _ => none

/-- parser.rs:202-210 and 318-326: operator and version to constraint. -/
def mkConstraint (op : Str) (v : Version) : Option VersionConstraint :=
  if op == c!"==" then some (.exact v)
  else if op == c!">" then some (.greaterThan v)
  else if op == c!">=" then some (.greaterThanOrEqual v)
  else if op == c!"<" then some (.lessThan v)
  else if op == c!"<=" then some (.lessThanOrEqual v)
  else if op == c!"~=" then some (.compatible v)
  else none

/-- parser.rs:308-330 `parse_single_constraint`; `none` is `Err`. -/
def parseSingleConstraint (s : Str) : Option VersionConstraint := do
  let (op, v) ← splitOp (trim s)
  let v ← Version.parse v
  mkConstraint op v

/-- parser.rs:244-259 `parse_version_constraints`. -/
def parseVersionConstraints (s : Str) : Option VersionConstraint :=
  match splitChar ',' s with
  | [p] => parseSingleConstraint p
  | parts => (parts.mapM fun p => parseSingleConstraint (trim p)).map .multiple

/-- `str::trim_end_matches('+')` -/
def trimEndPlus (s : Str) : Str := (s.reverse.dropWhile (· == '+')).reverse

/-- parser.rs:263-272: the `a..b` form. -/
def specDots (spec : Str) : Option VersionConstraint := do
  let (a, b) ← splitOnce c!".." spec
  let lo ← Version.parse a
  let hi ← Version.parse b
  return .multiple [.greaterThanOrEqual lo, .lessThan hi]

/-- parser.rs:285-299: the upper bound text `<..` or `<=..`. -/
def specUpper (upper : Str) : Option VersionConstraint :=
  match upper with
  | '<' :: '=' :: s => (Version.parse (trim s)).map .lessThanOrEqual
  | _ :: s => (Version.parse (trim s)).map .lessThan
  | [] => none

/-- parser.rs:262-305 `parse_rez_version_spec`. -/
def parseRezSpec (spec : Str) : Option VersionConstraint :=
  match specDots spec with
  | some c => some c
  | none =>
    match splitOnce c!"<" spec with
    | some (pre, post) => do
      let lo ← Version.parse (trimEndPlus pre)
      let hi ← specUpper ('<' :: post)
      return .multiple [.greaterThanOrEqual lo, hi]
    | none => do
      let lo ← Version.parse (trimEndPlus spec)
      return if spec.getLast? == some '+' then .greaterThanOrEqual lo else .prefixOf lo

/-- `str::rfind(c)`: the text before and after the last occurrence of `d`. -/
def rsplitOnce (d : Char) : Str → Option (Str × Str)
  | [] => none
  | c :: cs =>
    match rsplitOnce d cs with
    | some (a, b) => some (c :: a, b)
    | none => if c == d then some ([], cs) else none

/-- parser.rs:215-226: the `package-1.0+` form. -/
def parsePlusForm (s : Str) : Option (Str × Option VersionConstraint) := do
  if s.getLast? != some '+' then none
  else
    let (name, v) ← rsplitOnce '-' s.dropLast
    let v ← Version.parse v
    return (name, some (.greaterThanOrEqual v))

/-- parser.rs:228-238: the `package-spec` form. -/
def parseDashForm (s : Str) : Option (Str × Option VersionConstraint) := do
  let (name, spec) ← splitOnce c!"-" s
  let c ← parseRezSpec spec
  return (name, some c)

/-- parser.rs:176-241 `parse_name_and_version`; `none` is `Err`. -/
def parseNameVersion (s : Str) : Option (Str × Option VersionConstraint) :=
  match matchWildcard s with
  | some (name, pat) => some (name, some (.wildcard pat))
  | none =>
    match matchBasic s with
    | some (name, op, v) =>
      if s.contains ',' then (parseVersionConstraints (s.drop name.length)).map fun c => (name, some c)
      else do
        let v ← Version.parse v
        let c ← mkConstraint op v
        return (name, some c)
    | none =>
      match parsePlusForm s with
      | some r => some r
      | none =>
        match parseDashForm s with
        | some r => some r
        | none => some (s, none)

/-- parser.rs:109-123: the architecture.  The search for a closing quote starts after the last quote. -/
def archOf (afterPlatform condition : Str) : Option Str :=
  if containsStr condition c!"arch" then
    match rsplitOnce '\'' afterPlatform with
    | some (_, tail) => (splitOnce c!"'" tail).map Prod.fst
    | none => none
  else none

/-- parser.rs:100-133 `parse_platform_condition`. -/
def parsePlatformCondition (condition : Str) : Option PlatformCondition := do
  let (_, r) ← splitOnce c!"'" condition
  let (platform, rest) ← splitOnce c!"'" r
  return ⟨platform, archOf rest condition, containsStr condition c!"!="⟩

/-- parser.rs:146-156: the expected value; the outer `none` is `Err`. -/
def envValue (valuePart : Str) : Option (Option Str) :=
  if trim valuePart == c!"None" then some none
  else match splitOnce c!"'" valuePart with
    | some (_, r) => (splitOnce c!"'" r).map fun p => some p.1
    | none => some (some (trim valuePart))

/-- parser.rs:136-173 `parse_env_condition`, for a text that starts with `env.` (the only caller checks it,
parser.rs:84). -/
def parseEnvCondition (condition : Str) : Option EnvCondition :=
  let negate := containsStr condition c!"!="
  let varPart := condition.drop 4
  match (splitOnce c!"==" varPart).or (splitOnce c!"!=" varPart) with
  | some (name, valuePart) => (envValue valuePart).map fun e => ⟨name, e, negate⟩
  | none => some ⟨varPart, none, negate⟩

/-- parser.rs:68-97 `parse_conditions`: `before` is the text already known to contain no `[`.  `fuel` bounds
the number of brackets; the length of the text suffices. -/
def parseConditions : Nat → Str → Str → List PlatformCondition → List EnvCondition →
    Option (Str × List PlatformCondition × List EnvCondition)
  | 0, _, _, _, _ => none
  | fuel + 1, before, s, ps, es =>
    match splitOnce c!"[" s with
    | none => some (before ++ s, ps, es)
    | some (pre, r) =>
      match splitOnce c!"]" r with
      | none => none
      | some (cond, after) =>
        if c!"platform".isPrefixOf cond then
          match parsePlatformCondition cond with
          | none => none
          | some p => parseConditions fuel (before ++ pre) after (ps ++ [p]) es
        else if c!"env.".isPrefixOf cond then
          match parseEnvCondition cond with
          | none => none
          | some e => parseConditions fuel (before ++ pre) after ps (es ++ [e])
        else none

/-- parser.rs:32-36: `strip_prefix('!')`. -/
def stripConflict : Str → Str × Bool
  | '!' :: s => (s, true)
  | s => (s, false)
/-- parser.rs:38-42: `strip_prefix('~')`, unless a conflict. -/
def stripWeak (s : Str) (conflict : Bool) : Str × Bool :=
  if conflict then (s, false) else match s with
    | '~' :: r => (r, true)
    | r => (r, false)
/-- parser.rs:44-50: the namespace. -/
def stripNamespace (s : Str) : Str × Option Str :=
  match matchNamespace s with
  | some (n, r) => (r, some n)
  | none => (s, none)

/-- parser.rs:29-65 `RequirementParser::parse`; `none` is `Err`. -/
def Requirement.parse (s : Str) : Option Requirement := do
  let (s, conflict) := stripConflict (trim s)
  let (s, weak) := stripWeak s conflict
  let (s, ns) := stripNamespace s
  let (rest, ps, es) ← parseConditions (s.length + 1) [] s [] []
  let (name, c) ← parseNameVersion rest
  return ⟨name, c, weak, conflict, ps, es, ns⟩

/-! ## `package/requirement.rs` -/

/-- package/requirement.rs:11-20 `struct PackageRequirement`. -/
structure PackageRequirement where
  name : Str
  spec : Option Str
  weak : Bool
  conflict : Bool
deriving DecidableEq

/-- `&s[n..]` with a byte index: `none` is the panic on an index that is not a character boundary (or past
the end). -/
def sliceBytes : Nat → Str → Option Str
  | 0, s => some s
  | _ + 1, [] => none
  | n + 1, c :: cs => if c.utf8Size ≤ n + 1 then sliceBytes (n + 1 - c.utf8Size) cs else none

/-- `str::len`: the number of bytes. -/
def byteLen (s : Str) : Nat := (s.map Char.utf8Size).sum

/-- The result of a call that may return `Err` or panic. -/
inductive Outcome (α : Type) where
  | ok (a : α)
  | err
  | panic
deriving DecidableEq

/-- package/requirement.rs:76-84: the weak prefix, unless `~=`. -/
def stripWeakPR (s : Str) : Str × Bool :=
  match s with
  | '~' :: '=' :: r => ('~' :: '=' :: r, false)
  | '~' :: r => (r, true)
  | r => (r, false)

/-- package/requirement.rs:88 `strip_prefix('-').unwrap_or(remainder)`. -/
def stripDash : Str → Str
  | '-' :: r => r
  | r => r

/-- package/requirement.rs:69-97 `PackageRequirement::parse`. -/
def PackageRequirement.parse (s : Str) : Outcome PackageRequirement :=
  let (s, conflict) := stripConflict s
  let (s, weak) := stripWeakPR s
  match Requirement.parse s with
  | none => .err
  | some p =>
    match sliceBytes (byteLen p.name) s with
    | none => .panic
    | some remainder =>
      let spec := stripDash remainder
      .ok ⟨p.name, if spec.isEmpty then none else some spec, weak, conflict⟩

/-- package/requirement.rs:136-155: the operator prefix. -/
def prOperator (spec : Str) : Option (Str × Str) :=
  [c!">=", c!"<=", c!"!=", c!"~=", c!"==", c!">", c!"<"].findSome? fun op =>
    if op.isPrefixOf spec then some (op, spec.drop op.length) else none

/-- package/requirement.rs:157-172: operator and version text against a version. -/
def prCompare (version : Version) (op verStr : Str) : Bool :=
  let verStr := trim verStr
  match Version.parse verStr with
  | some c =>
    let k : VersionConstraint :=
      if op == c!">=" then .greaterThanOrEqual c
      else if op == c!"<=" then .lessThanOrEqual c
      else if op == c!">" then .greaterThan c
      else if op == c!"<" then .lessThan c
      else if op == c!"!=" then .exclude [c]
      else if op == c!"~=" then .compatible c
      else .exact c
    k.satisfied version
  | none => version.asStr == verStr

/-- package/requirement.rs:133-173 `check_single_constraint`. -/
def checkSingle (version : Version) (spec : Str) : Bool :=
  match prOperator spec with
  | some (op, v) => prCompare version op v
  | none =>
    match VersionRange.parse spec with
    | some r => r.contains version
    | none => prCompare version c!"==" spec

/-- package/requirement.rs:115-130 `satisfied_by`. -/
def PackageRequirement.satisfiedBy (r : PackageRequirement) (version : Version) : Bool :=
  match r.spec with
  | none => true
  | some spec =>
    let spec := trim spec
    if spec.isEmpty then true
    else if spec.contains ',' then (splitChar ',' spec).all fun p => checkSingle version (trim p)
    else checkSingle version spec

/-- package/requirement.rs:22-37 `Display`. -/
def PackageRequirement.display (r : PackageRequirement) : Str :=
  let base := match r.spec with | some v => r.name ++ c!"-" ++ v | none => r.name
  if r.conflict then c!"!" ++ base else if r.weak then c!"~" ++ base else base

end Rez
