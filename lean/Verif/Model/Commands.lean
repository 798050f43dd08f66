import Verif.Model.PackageFiles
import Verif.Model.Search
import Verif.Model.Rex
/-!
# `src/cli/commands/{cp,mv,rm}.rs`, `src/cli/utils.rs` and `rez-next-package/src/package_py_utils.rs`

The packages of a family are what the repository manager returned (`Rez.Repository.managerFind`); they are an argument.
-/
namespace Rez.Commands
open Rez Rez.Files Rez.Search
open Rez.PackageOrder (Sorting splitCmp)

/-- Does the text start with an ASCII digit? -/
def startsDigit : Str → Bool
  | c :: _ => isDigit c
  | [] => false

/-- cp.rs:181-193, mv.rs:197-209, rm.rs:497-508 `parse_package_spec`. -/
def parseSpec (s : Str) : Str × Option Str :=
  match rsplitOnce '-' s with
  | some (name, version) => if startsDigit version then (name, some version) else (s, none)
  | none => (s, none)

/-- cp.rs:210-219, rm.rs:412-414: does the package have exactly this version text? -/
def versionIs (text : Str) (p : Package) : Bool :=
  match p.version with
  | some v => v.asStr == text
  | none => false

/-- cp.rs:209-229, mv.rs:227-247: the choice among the packages of the family (`splitCmp` is the comparison written
there). -/
def choose (srt : Sorting) (ps : List Package) : Option Str → Outcome (Option Package)
  | some text => .ok (ps.find? (versionIs text))
  | none =>
    match srt.sort splitCmp ps with
    | .ok l => .ok l.head?
    | .err => .err
    | .panic => .panic

/-- cp.rs:232-248, mv.rs:249-264: the directory of the package. -/
def locate (fs : FS) (bases : List Path) (name version : Str) : Option Path :=
  (bases.flatMap fun b => [join (join b name) version, join b (name ++ c!"-" ++ version)]).find? fun p => (mget fs p).isSome

/-- mv.rs:272-306 `move_package_directory`, with the check of mv.rs:134-138.  The copy follows links; here links are copied
like files, so theorems ask for a source without links. -/
def moveDir (order : Order) (fs : FS) (force keep : Bool) (src dest : Path) : List Step × Except Err Unit :=
  match copyInto order fs force src dest with
  | (steps, .error e) => (steps, .error e)
  | (steps, .ok _) =>
    if keep then (steps, .ok ())
    else if mget (run fs steps) src = some .dir then (steps ++ removeTree order (run fs steps) src, .ok ())
    else (steps, .error .io)

/-- mv.rs:90-175 `execute_move_async`, without the messages. -/
def mv (order : Order) (srt : Sorting) (fs : FS) (bases : List Path) (force keep dryRun : Bool) (find : Str → List Package)
    (text : Str) (destBase : Path) : List Step × Outcome (Except Err Unit) :=
  match choose srt (find (parseSpec text).1) (parseSpec text).2 with
  | .panic => ([], .panic)
  | .err => ([], .err)
  | .ok none => ([], .ok (.error .notFound))
  | .ok (some p) =>
    match locate fs bases p.name (versionText p) with
    | none => ([], .ok (.error .notFound))
    | some src =>
      let dest := join (join destBase p.name) (versionText p)
      if !force && (mget fs dest).isSome then ([], .ok (.error .exists_))
      else if dryRun then ([], .ok (.ok ()))
      else
        let r := moveDir order fs force keep src dest
        (r.1, .ok r.2)

/-- rm.rs:424-494 `remove_single_package`: the first search path that has the version. -/
def removeSingle (order : Order) (fs : FS) (bases : List Path) (p : Package) : List Step :=
  match (bases.map fun b => join (join b p.name) (versionText p)).find? fun d => (mget fs d).isSome with
  | none => []
  | some d => if mget fs d = some .dir then removeTree order fs d else []

/-- rm.rs:154-184: one package after the other. -/
def removeEach (order : Order) (bases : List Path) : FS → List Package → List Step
  | _, [] => []
  | fs, p :: ps =>
    let s := removeSingle order fs bases p
    s ++ removeEach order bases (run fs s) ps

/-- rm.rs:404-422 `find_packages_to_remove`. -/
def toRemove (ps : List Package) : Option Str → List Package
  | some text => ps.filter (versionIs text)
  | none => ps

/-- rm.rs:104-188 `remove_package`; `confirm` is what the user answers, true if they are not asked. -/
def rm (order : Order) (fs : FS) (bases : List Path) (dryRun : Bool) (confirm : Package → Bool) (find : Str → List Package)
    (text : Str) : List Step :=
  if dryRun then []
  else removeEach order bases fs ((toRemove (find (parseSpec text).1) (parseSpec text).2).filter confirm)

/-- rm.rs:291-317: is the package file, in the first of the given paths that has it, older? -/
def ignored (fs : FS) (given : List Path) (mtime : Path → Option Nat) (cutoff : Nat) (p : Package) : Bool :=
  match (given.map fun b => join (join (join b p.name) (versionText p)) c!"package.py").find? fun f => (mget fs f).isSome with
  | none => false
  | some f =>
    match mtime f with
    | some t => decide (t < cutoff)
    | none => false

/-- rm.rs:268-366 `remove_ignored_since`; without paths on the command line the configured ones are searched. -/
def removeIgnored (order : Order) (fs : FS) (given configured : List Path) (dryRun : Bool) (mtime : Path → Option Nat)
    (cutoff : Nat) (ps : List Package) : List Step :=
  if dryRun then []
  else removeEach order (if given.isEmpty then configured else given) fs (ps.filter (ignored fs given mtime cutoff))

/-! ## Times -/

/-- utils.rs:179-185: the seconds of a unit. -/
def unitSeconds : Char → Option Int
  | 'd' | 'D' => some 86400
  | 'w' | 'W' => some (7 * 86400)
  | 'm' | 'M' => some (30 * 86400)
  | 'y' | 'Y' => some (365 * 86400)
  | _ => none

/-- Is the integer an `i64`? -/
def isI64 (n : Int) : Bool := decide (-2 ^ 63 ≤ n) && decide (n < 2 ^ 63)

/-- An integer modulo 2^64, as an `i64`. -/
def wrap (n : Int) : Int := (n + 2 ^ 63) % 2 ^ 64 - 2 ^ 63

/-- utils.rs:172-188 `parse_relative_time`: `checks` says whether overflow checks are compiled in (they are not in a
release build, which wraps). -/
def relativeTime (checks : Bool) (now : Int) (s : Str) : Outcome (Option Int) :=
  match (trim s).getLast? with
  | none => .ok none
  | some unit =>
    if unit.utf8Size ≠ 1 then .panic
    else
      match parseI64 (trim s).dropLast with
      | none => .ok none
      | some n =>
        match unitSeconds unit with
        | none => .ok none
        | some secs =>
          if checks && !(isI64 (n * secs) && isI64 (now - n * secs)) then .panic
          else .ok (some (wrap (now - n * secs)))

/-- utils.rs:157-168 `parse_timestamp`; `iso` reads dates. -/
def timestamp (iso : Str → Option Int) (checks : Bool) (now : Int) (s : Str) : Outcome (Option Int) :=
  match iso s with
  | some t => .ok (some t)
  | none => relativeTime checks now s

/-- utils.rs:195-203 `parse_time_spec`. -/
def timeSpec (iso : Str → Option Int) (checks : Bool) (now : Int) (s : Str) : Outcome Nat :=
  match timestamp iso checks now s with
  | .ok (some t) => if 0 ≤ t then .ok t.toNat else .err
  | .ok none => .err
  | .err => .err
  | .panic => .panic

/-! ## Wildcards in requirements -/

/-- package_py_utils.rs:23-30: three bytes from the first `**` on are replaced.  The number bounds the rounds; each takes two
stars away. -/
def doubles (fresh : Nat → Str) : Nat → Nat → Str → Outcome (Str × Nat × List (Str × Str))
  | 0, k, s => .ok (s, k, [])
  | n + 1, k, s =>
    match splitOnce c!"**" s with
    | none => .ok (s, k, [])
    | some (_, []) => .panic
    | some (a, c :: b) =>
      if c.utf8Size ≠ 1 then .panic
      else
        match doubles fresh n (k + 1) (a ++ fresh k ++ b) with
        | .ok (s', k', m) => .ok (s', k', (fresh k, c!"**") :: m)
        | .err => .err
        | .panic => .panic

/-- package_py_utils.rs:33-39: each star is replaced. -/
def singles (fresh : Nat → Str) : Nat → Nat → Str → Str × List (Str × Str)
  | 0, _, s => (s, [])
  | n + 1, k, s =>
    match splitOnce c!"*" s with
    | none => (s, [])
    | some (a, b) =>
      let r := singles fresh n (k + 1) (a ++ fresh k ++ b)
      (r.1, (fresh k, c!"*") :: r.2)

/-- package_py_utils.rs:18-42 `replace_wildcards`; `fresh` gives the unique texts. -/
def replaceWildcards (fresh : Nat → Str) (s : Str) : Outcome (Str × List (Str × Str)) :=
  match doubles fresh s.length 0 s with
  | .ok (s1, k, m1) => .ok ((singles fresh s.length k s1).1, m1 ++ (singles fresh s.length k s1).2)
  | .err => .err
  | .panic => .panic

/-- package_py_utils.rs:45-51 `restore_wildcards`, over the map in some order. -/
def restoreWildcards (m : List (Str × Str)) (s : Str) : Str := m.foldl (fun s e => Rex.replaceAll e.1 e.2 s) s

/-- package_py_utils.rs:83-87: the expanded requirement. -/
def expanded (name : Str) (spec : Option Str) (request latest : Str) : Str :=
  match spec with
  | some v => name ++ c!"-" ++ Rex.replaceAll request latest v
  | none => name ++ c!"-" ++ latest

/-- package_py_utils.rs:61-93 `expand_requirement`. -/
def expandRequirement (fresh : Nat → Str) (iter : List (Str × Str) → List (Str × Str)) (query : Str → Option Str → Option Str)
    (s : Str) : Outcome Str :=
  if !s.contains '*' then .ok s
  else
    match replaceWildcards fresh s with
    | .panic => .panic
    | .err => .err
    | .ok (s', m) =>
      match PackageRequirement.parse s' with
      | .panic => .panic
      | .err => .err
      | .ok r =>
        match query r.name r.spec with
        | none => .ok s
        | some latest => .ok (restoreWildcards (iter m) (expanded r.name r.spec s' latest))

end Rez.Commands
