import Verif.Model.Commands
import Verif.Model.Util
/-!
# `src/cli/commands/pkg_cache/{mod,ops,display}.rs`: the command `rez pkg-cache`

The file system and its steps are those of `Model/PackageFiles.lean`.  Parameters: the order in which directories are listed, the
directories that may not be made, what may not be removed, the packages of a family, and the environment.  Links count as files.
The cache in memory is new with every call, so that it holds nothing that is asked for; adding to it does not fail.  Left out: its
statistics, which are all zero, and the messages.
-/
namespace Rez.PkgCache
open Rez Rez.Files

/-- The machine. -/
structure Host where
  order : Order
  /-- directories that may not be made -/
  denied : Path → Bool
  /-- what may not be removed -/
  stuck : Path → Bool
  cwd : Path
  /-- `USERPROFILE`, or else `HOME` -/
  home : Option Str
  /-- `RezCoreConfig::load().package_cache_path` -/
  configured : List Str
  /-- `find_packages`, or nothing if it fails -/
  find : Str → List Package

/-- types.rs:11-48 `PkgCacheArgs`: the fields that are read. -/
structure Args where
  dir : Option Str
  add : List Str
  remove : List Str
  clean : Bool
  logs : Bool
  daemon : Bool
  columns : List Str

/-- utils.rs:128-139 `expand_home_path`, and where the path leads. -/
def expandPath (h : Host) (p : Str) : Path :=
  match h.home with
  | none => join h.cwd p
  | some home =>
    if p = c!"~" then join h.cwd home
    else if (c!"~/").isPrefixOf p || (c!"~\\").isPrefixOf p then join (join h.cwd home) (p.drop 2)
    else join h.cwd p

/-- ops.rs:12-36 `determine_cache_directory`. -/
def cacheDir (h : Host) (dir : Option Str) : Option Path :=
  match dir with
  | some d => some (expandPath h d)
  | none =>
    match h.configured with
    | (c :: cs) :: _ => some (expandPath h (c :: cs))
    | _ => h.home.map fun home => join h.cwd home ++ [c!".rez", c!"cache", c!"packages"]

/-- `fs::create_dir_all`: the steps, and whether it succeeds.  It stops at the first directory that may not be made. -/
def makeAll (h : Host) (fs : FS) (p : Path) : List Step × Bool :=
  if blocked fs p then ([], false)
  else
    let made := p.inits.takeWhile fun q => (mget fs q).isSome || !h.denied q
    (made.map .mkdir, made.length == p.inits.length)

/-- `fs::read_dir`: what is in a directory. -/
def children (h : Host) (fs : FS) (p : Path) : FS :=
  if mget fs p = some .dir then (h.order fs).filter fun e => p.isPrefixOf e.1 && e.1.length == p.length + 1 else []

/-- The name of a file. -/
def nameOf (p : Path) : Str := p.getLastD []

/-- ops.rs:77, 96-99: the stem of a name with the extension `pending`.  A name that is only the extension has none. -/
def stem (name : Str) : Option Str :=
  if (c!".pending").isSuffixOf name && decide (8 < name.length) then some (name.take (name.length - 8)) else none

/-- ops.rs:98: `replace('_', "/")`. -/
def uriOf (s : Str) : Str := s.map fun c => if c = '_' then '/' else c

/-- ops.rs:74-81: the names of the requests. -/
def requests (h : Host) (fs : FS) (dir : Path) : List Str :=
  ((children h fs (dir ++ [c!"pending"])).map fun e => nameOf e.1).filter fun n => (stem n).isSome

/-- ops.rs:93-137: one request; the steps, and whether it was cached. -/
def serve (h : Host) (dir : Path) (fs : FS) (n : Str) : List Step × Bool :=
  match stem n with
  | none => ([], false)
  | some s =>
    let made := makeAll h fs (join dir (uriOf s))
    if made.2 then
      let f := dir ++ [c!"pending", n]
      (made.1 ++ (match mget (run fs made.1) f with
        | none => []
        | some .dir => []
        | some _ => if h.stuck f then [] else [.remove f]), true)
    else (made.1, false)

/-- ops.rs:93-137: all of them. -/
def serveAll (h : Host) (dir : Path) : FS → List Str → List Step × List Bool
  | _, [] => ([], [])
  | fs, n :: ns =>
    let a := serve h dir fs n
    let r := serveAll h dir (run fs a.1) ns
    (a.1 ++ r.1, a.2 :: r.2)

/-- What the command did. -/
inductive Report where
  | served (processed failed : Nat)
  | added
  | removed (found : List Bool)
  | cleaned (dirs : Nat)
  | log (lines : Option (List Str))
  | table (lines : List Str)

/-- ops.rs:59-145 `run_daemon`. -/
def daemon (h : Host) (dir : Path) (fs : FS) : List Step × Outcome Report :=
  let p := dir ++ [c!"pending"]
  let first := if (mget fs p).isSome then ([], true) else makeAll h fs p
  if first.2 then
    let fs1 := run fs first.1
    let r := serveAll h dir fs1 (requests h fs1 dir)
    (first.1 ++ r.1, .ok (.served (r.2.count true) (r.2.count false)))
  else (first.1, .err)

/-- ops.rs:163-204: the directory for a variant. -/
def addTarget (h : Host) (dir : Path) (uri : Str) : Path :=
  let spec := Commands.parseSpec uri
  match (h.find spec.1).find? fun p => match spec.2 with | none => true | some v => Commands.versionIs v p with
  | some p => join (join dir spec.1) ((p.version.map Version.asStr).getD c!"unknown")
  | none => join dir spec.1

/-- ops.rs:148-228 `add_variants`; a directory that cannot be made is a warning. -/
def addAll (h : Host) (dir : Path) : FS → List Str → List Step
  | _, [] => []
  | fs, uri :: rest =>
    let s := (makeAll h fs (addTarget h dir uri)).1
    s ++ addAll h dir (run fs s) rest

/-- ops.rs:264-281: one directory after the other; the steps, and how many counted. -/
def cleanEach (h : Host) : FS → List Path → List Step × Nat
  | _, [] => ([], 0)
  | fs, p :: ps =>
    if mget fs p = some .dir ∧ (children h fs p).isEmpty then
      let s := if h.stuck p then [] else [Step.remove p]
      let r := cleanEach h (run fs s) ps
      (s ++ r.1, r.2 + 1)
    else cleanEach h fs ps

/-- ops.rs:253-292 `clean_cache`. -/
def clean (h : Host) (dir : Path) (fs : FS) : List Step × Nat := cleanEach h fs ((children h fs dir).map Prod.fst)

/-- ops.rs:294-323 `view_logs`: the lines that are shown; an error if the file cannot be read.  Lines end with a line feed. -/
def logLines (dir : Path) (fs : FS) (lines : Str → List Str) : Outcome (Option (List Str)) :=
  match mget fs (dir ++ [c!"cache.log"]) with
  | none => .ok none
  | some (.file c) =>
    let l := lines c
    .ok (some (l.drop (if l.length > 50 then l.length - 50 else 0)))
  | some _ => .err

/-- An entry of the table. -/
structure Row where
  package : Str
  uri : Str
  path : Path
deriving DecidableEq

/-- The directories in a directory. -/
def subdirs (h : Host) (fs : FS) (p : Path) : List Path := ((children h fs p).filter fun e => e.2 == .dir).map Prod.fst

/-- display.rs:62-124 `scan_cache_directory`. -/
def scan (h : Host) (fs : FS) (dir : Path) : List Row :=
  (subdirs h fs dir).flatMap fun k => (subdirs h fs k).flatMap fun v =>
    let uri := nameOf k ++ c!"-" ++ nameOf v
    if (subdirs h fs v).isEmpty then [⟨nameOf k, uri, v⟩]
    else (subdirs h fs v).map fun x => ⟨nameOf k, uri ++ c!"/" ++ nameOf x, x⟩

/-- display.rs:190-196 `truncate_string` to 15 bytes; slicing inside a character panics. -/
def truncate (s : Str) : Outcome Str :=
  if byteLen s ≤ 15 then .ok s
  else match Util.prefixBytes 12 s with
    | some p => .ok (p ++ c!"...")
    | none => .panic

/-- `{:15}`. -/
def pad (s : Str) : Str := s ++ List.replicate (15 - s.length) ' '

/-- `Path::display`. -/
def shownPath (p : Path) : Str := p.flatMap fun c => '/' :: c

/-- display.rs:158-173: a value; the entries are all cached. -/
def cell (r : Row) (column : Str) : Str :=
  if column = c!"status" then c!"cached"
  else if column = c!"package" then r.package
  else if column = c!"variant_uri" then r.uri
  else if column = c!"cache_path" then shownPath r.path
  else c!"-"

/-- display.rs:154-177 `print_table_row`. -/
def rowLine (r : Row) : List Str → Outcome (List Str)
  | [] => .ok []
  | c :: cs =>
    match truncate (cell r c) with
    | .panic => .panic
    | .err => .err
    | .ok t =>
      match rowLine r cs with
      | .ok l => .ok (pad t :: l)
      | o => o

/-- display.rs:55-57: the rows in turn. -/
def rowLines (columns : List Str) : List Row → Outcome (List Str)
  | [] => .ok []
  | r :: rs =>
    match rowLine r columns with
    | .panic => .panic
    | .err => .err
    | .ok l =>
      match rowLines columns rs with
      | .ok ls => .ok (joinWith c!" " l :: ls)
      | o => o

/-- mod.rs:22-45 `execute`, with ops.rs:39-51 `initialize_cache_manager`. -/
def execute (h : Host) (lines : Str → List Str) (a : Args) (fs : FS) : List Step × Outcome Report :=
  match cacheDir h a.dir with
  | none => ([], .err)
  | some dir =>
    let first := if (mget fs dir).isSome then ([], true) else makeAll h fs dir
    if !first.2 then (first.1, .err)
    else
      let fs1 := run fs first.1
      if a.daemon then
        let r := daemon h dir fs1
        (first.1 ++ r.1, r.2)
      else if !a.add.isEmpty then (first.1 ++ addAll h dir fs1 a.add, .ok .added)
      else if !a.remove.isEmpty then (first.1, .ok (.removed (a.remove.map fun _ => false)))
      else if a.clean then
        let r := clean h dir fs1
        (first.1 ++ r.1, .ok (.cleaned r.2))
      else if a.logs then
        match logLines dir fs1 lines with
        | .ok l => (first.1, .ok (.log l))
        | .err => (first.1, .err)
        | .panic => (first.1, .panic)
      else
        match rowLines a.columns (scan h fs1 dir) with
        | .ok l => (first.1, .ok (.table l))
        | .err => (first.1, .err)
        | .panic => (first.1, .panic)

end Rez.PkgCache
