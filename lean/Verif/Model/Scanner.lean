import Verif.Model.BuildCopy
import Verif.Model.RexShell
import Mathlib.Data.List.Lex
import Mathlib.Data.List.Sort
/-!
# Scanning repositories: `rez-next-repository/src/scanner/*.rs`, `scanner_types.rs`, `high_performance_scanner.rs`

The parser of packages is a parameter, and so are the order in which directories are listed, the order in which files are
scanned (they are scanned concurrently; what they share is a map with an entry per file) and the times of the cache.
Simplifications: paths are absolute, there are no links, files are UTF-8; what can be read at the start of a scan can be read
throughout it; the counters of times and bytes and the detection of formats, whose result is not used, are left out.
-/
namespace Rez.Scanner
open Rez Rez.Files Rez.Build

/-! ## Patterns -/

/-- A part of the expression that a pattern becomes. -/
inductive Tok where
  | lit (c : Char)
  | any
  | seg
  | all
deriving DecidableEq

/-- path.rs:20-28 `glob_to_regex`, path.rs:109-117: `**` becomes `.*`, `*` becomes `[^/]*`, `?` becomes `.`; and `.` is one already.
Of the other characters with a meaning in expressions, none is in the pattern. -/
def tokens : Str → List Tok
  | [] => []
  | '*' :: '*' :: s => .all :: tokens s
  | '*' :: s => .seg :: tokens s
  | '?' :: s => .any :: tokens s
  | '.' :: s => .any :: tokens s
  | c :: s => .lit c :: tokens s

/-- Some characters, and then the rest. -/
def many (p : Char → Bool) (k : Str → Bool) : Str → Bool
  | [] => k []
  | d :: r => k (d :: r) || (p d && many p k r)

/-- `Regex::is_match` with `^` and `$`: `.` is any character but a line break. -/
def hits : List Tok → Str → Bool
  | [] => fun s => s.isEmpty
  | .lit c :: t => fun s => match s with
    | d :: r => c == d && hits t r
    | [] => false
  | .any :: t => fun s => match s with
    | d :: r => d != '\n' && hits t r
    | [] => false
  | .seg :: t => many (fun d => d != '/') (hits t)
  | .all :: t => many (fun d => d != '\n') (hits t)

/-- path.rs:61-70: what follows each `/`. -/
def tails : Str → List Str
  | [] => []
  | c :: s => if c = '/' then s :: tails s else tails s

/-- path.rs:54-71: an expression for a path. -/
def excludes (t : List Tok) (s : Str) : Bool := hits t s || (tails s).any fun x => !x.isEmpty && hits t x

/-- `to_string_lossy`. -/
def pathText (p : Path) : Str := '/' :: joinWith c!"/" p

/-- `replace('\\', "/")`. -/
def slashed (s : Str) : Str := s.map fun c => if c = '\\' then '/' else c

/-- scanner_types.rs:16-90 `ScannerConfig`, what is used of it. -/
structure Config where
  maxDepth : Nat := 10
  includes : List Str := [c!"package.py"]
  excludePatterns : List Str := [c!".git/**", c!".svn/**", c!"__pycache__/**", c!"*.pyc", c!".DS_Store", c!"node_modules/**", c!".vscode/**", c!".idea/**"]
  cacheOn : Bool := true
  maxCache : Nat := 100
  prefixOn : Bool := true

/-- path.rs:50-73 `should_exclude_path`. -/
def excluded (cfg : Config) (p : Path) : Bool := cfg.excludePatterns.any fun x => excludes (tokens x) (slashed (pathText p))

/-- A pattern with `*` or `?`. -/
def wild (s : Str) : Bool := s.contains '*' || s.contains '?'

/-- path.rs:98-125 `matches_pattern`. -/
def matchesPattern (text pattern : Str) : Bool := pattern == c!"*" || hits (tokens pattern) (slashed text)

/-- path.rs:31-47 `is_package_file`; mod.rs:86-93. -/
def isPackageFile (cfg : Config) (name : Str) : Bool :=
  (cfg.includes.filter fun p => !wild p).contains name || (cfg.includes.filter wild).any fun p => matchesPattern name p

/-! ## Directories and files -/

/-- The disk: what is on it, when files were changed, and which directories can be read. -/
structure Disk where
  fs : FS
  mtime : Path → Nat
  readable : Path → Bool

/-- scan.rs:151-159: the entries of a directory. -/
def collectEach (cfg : Config) (sub : Path → Option (List Path)) (p : Path) : List (Str × Entry) → Option (List Path)
  | [] => some []
  | (x, e) :: rest =>
    if e = .dir && !excluded cfg (p ++ [x]) then
      match sub (p ++ [x]) with
      | none => none
      | some l => (collectEach cfg sub p rest).map (l ++ ·)
    else collectEach cfg sub p rest

/-- scan.rs:123-163 `collect_directories_recursive`; the number is that of the levels that are left. -/
def collect (cfg : Config) (d : Disk) (order : Listing) : Nat → Path → Option (List Path)
  | 0, _ => some []
  | n + 1, p =>
    if excluded cfg p then some []
    else if !d.readable p then none
    else (collectEach cfg (collect cfg d order n) p (order (children d.fs p))).map (p :: ·)

/-- An entry that is a file. -/
def isFile : Entry → Bool
  | .file _ => true
  | _ => false

/-- scan.rs:183-215: the files of a directory. -/
def filesOf (cfg : Config) (d : Disk) (order : Listing) (p : Path) : List Path :=
  if excluded cfg p then []
  else ((order (children d.fs p)).filter fun e => isFile e.2 && isPackageFile cfg e.1).map fun e => p ++ [e.1]

/-! ## Files -/

/-- scanner_types.rs:93-106 `PackageScanResult`; its directory is that of the file. -/
structure Result (α : Type) where
  package : α
  file : Path
  size : Nat
deriving DecidableEq

/-- scanner_types.rs:176-189 `ScanCacheEntry`. -/
structure Cached (α : Type) where
  result : Result α
  mtime : Nat
  size : Nat
  last : Nat
deriving DecidableEq

/-- The cache and its counters. -/
structure State (α : Type) where
  cache : List (Path × Cached α) := []
  hits : Nat := 0
  misses : Nat := 0

variable {α : Type}

/-- scan.rs:322-338: eviction, oldest first.  `0.8 * max` is `max * 4 / 5`. -/
def evict (cfg : Config) (order : List (Path × Cached α) → List (Path × Cached α)) (c : List (Path × Cached α)) : List (Path × Cached α) :=
  if c.length > cfg.maxCache * 1000 then
    let gone := (((order c).insertionSort fun a b => a.2.last ≤ b.2.last).take (c.length - cfg.maxCache * 1000 * 4 / 5)).map Prod.fst
    c.filter fun e => !gone.contains e.1
  else c

/-- scan.rs:243-342 `scan_package_file_optimized` at a time. -/
def scanFile (cfg : Config) (d : Disk) (parse : Str → Option α) (order : List (Path × Cached α) → List (Path × Cached α)) (t : Nat)
    (st : State α) (f : Path) : Option (Result α) × State α :=
  match mget d.fs f with
  | some (.file s) =>
    match (if cfg.cacheOn then (mget st.cache f).filter fun e => e.mtime == d.mtime f && e.size == byteLen s else none) with
    | some e => (some e.result, { st with hits := st.hits + 1 })
    | none =>
      let st := if cfg.cacheOn then { st with misses := st.misses + 1 } else st
      match parse s with
      | none => (none, st)
      | some p =>
        let r : Result α := ⟨p, f, byteLen s⟩
        (some r, if cfg.cacheOn then { st with cache := evict cfg order (mset st.cache f ⟨r, d.mtime f, byteLen s, t⟩) } else st)
  | _ => (none, st)

/-- What is found so far: packages by file, and files with errors. -/
abbrev Found (α : Type) := List (Path × Result α) × List Path

/-- scan.rs:217-240: the files, one after the other. -/
def scanFiles (cfg : Config) (d : Disk) (parse : Str → Option α) (order : List (Path × Cached α) → List (Path × Cached α)) (time : Path → Nat) :
    List Path → Found α → State α → Found α × State α
  | [], acc, st => (acc, st)
  | f :: rest, acc, st =>
    match scanFile cfg d parse order (time f) st f with
    | (some r, st) => scanFiles cfg d parse order time rest (mset acc.1 f r, acc.2) st
    | (none, st) => scanFiles cfg d parse order time rest (acc.1, acc.2 ++ [f]) st

/-- scanner_types.rs:108-123 `ScanResult`. -/
structure Scan (α : Type) where
  packages : List (Path × Result α)
  directories : Nat
  files : Nat
  errors : List Path

/-- What is not determined by the code: the orders and the times. -/
structure Sched (α : Type) where
  listing : Listing
  files : List Path → List Path
  cache : List (Path × Cached α) → List (Path × Cached α)
  time : Path → Nat

/-- scan.rs:28-120 `scan_repository`; the batches follow each other. -/
def scanRepository (cfg : Config) (d : Disk) (parse : Str → Option α) (w : Sched α) (st : State α) (root : Path) : Option (Scan α) × State α :=
  if mget d.fs root ≠ some .dir then (none, st)
  else
    match collect cfg d w.listing (cfg.maxDepth + 1) root with
    | none => (none, st)
    | some dirs =>
      let files := w.files (dirs.flatMap (filesOf cfg d w.listing))
      let x := scanFiles cfg d parse w.cache w.time files ([], []) st
      (some ⟨x.1.1, dirs.length, files.length, x.1.2⟩, x.2)

/-! ## The cache -/

/-- cache.rs:194-203 `is_cache_entry_valid_static`. -/
def valid (d : Disk) (e : Cached α) : Bool :=
  match mget d.fs e.result.file with
  | some (.file s) => e.mtime == d.mtime e.result.file && e.size == byteLen s
  | _ => false

/-- cache.rs:150-169: the background task. -/
def refresh (d : Disk) (st : State α) : State α := { st with cache := st.cache.filter fun e => valid d e.2 }

/-- cache.rs:21-33 `clear_cache`. -/
def clear (_ : State α) : State α := {}

/-- cache.rs:72-106 `get_by_prefix` at a time, for a path in its canonical form. -/
def getByPrefix (cfg : Config) (d : Disk) (order : List (Path × Cached α) → List (Path × Cached α)) (t : Nat) (st : State α) (p : Path) :
    Option (Result α) × State α :=
  if !cfg.prefixOn then (none, st)
  else
    match (mget st.cache p).filter (valid d) with
    | some e => (some e.result, { st with cache := mupd st.cache p fun e => { e with last := t }, hits := st.hits + 1 })
    | none =>
      match (order st.cache).find? fun e => (e.1.isPrefixOf p || p.isPrefixOf e.1) && valid d e.2 with
      | some e => (some e.2.result, { st with cache := mupd st.cache e.1 fun e => { e with last := t } })
      | none => (none, st)

/-! ## The other scanner -/

/-- `Vec::sort` of paths. -/
def sortPaths (l : List Path) : List Path := l.insertionSort (· ≤ ·)

/-- high_performance_scanner.rs:146-174 `discover_directories`: the stack, its top first.  The number bounds the steps. -/
def discover (d : Disk) (order : Listing) : Nat → List Path → List Path → Option (List Path)
  | _, [], acc => some acc
  | 0, _ :: _, _ => none
  | n + 1, p :: stack, acc =>
    if d.readable p then
      let subs := sortPaths (((order (children d.fs p)).filter fun e => e.2 = .dir).map fun e => p ++ [e.1])
      discover d order n (subs.reverse ++ stack) (acc ++ subs)
    else discover d order n stack acc

/-- high_performance_scanner.rs:177-221 `discover_package_files_simd`. -/
def packageFiles (d : Disk) (order : Listing) (dirs : List Path) : List Path :=
  sortPaths ((dirs.flatMap fun p => if d.readable p then
    ((order (children d.fs p)).filter fun e => isFile e.2 && e.1 == c!"package.py").map fun e => p ++ [e.1] else []).foldl sadd [])

/-- The cache of this scanner, last used first; and its counters. -/
structure Fast (α : Type) where
  cache : List (Path × Result α) := []
  hits : Nat := 0
  misses : Nat := 0

/-- high_performance_scanner.rs:284-339 `scan_file_optimized`, 373-395; the cache holds `cap` results. -/
def fastFile (d : Disk) (parse : Str → Option α) (cap : Nat) (st : Fast α) (f : Path) : Option (Result α) × Fast α :=
  match mget st.cache f with
  | some r => (some r, { st with cache := (f, r) :: mdel st.cache f, hits := st.hits + 1 })
  | none =>
    let st := { st with misses := st.misses + 1 }
    match mget d.fs f with
    | some (.file s) =>
      match parse s with
      | none => (none, st)
      | some p => (some ⟨p, f, byteLen s⟩, { st with cache := ((f, ⟨p, f, byteLen s⟩) :: mdel st.cache f).take cap })
    | _ => (none, st)

/-- high_performance_scanner.rs:241-281: results in the order of the files; errors are dropped. -/
def fastFiles (d : Disk) (parse : Str → Option α) (cap : Nat) : List Path → Fast α → List (Result α) × Fast α
  | [], st => ([], st)
  | f :: rest, st =>
    let x := fastFile d parse cap st f
    let y := fastFiles d parse cap rest x.2
    (x.1.toList ++ y.1, y.2)

/-- high_performance_scanner.rs:118-143 `scan_repository_optimized`: the packages, and the files examined (since the scanner was
made). -/
def fastScan (d : Disk) (parse : Str → Option α) (order : Listing) (cap fuel : Nat) (st : Fast α) (root : Path) :
    Option (List (Result α) × Nat) × Fast α :=
  match discover d order fuel [root] [] with
  | none => (none, st)
  | some dirs =>
    let x := fastFiles d parse cap (packageFiles d order dirs) st
    (some (x.1, x.2.hits + x.2.misses), x.2)

end Rez.Scanner
