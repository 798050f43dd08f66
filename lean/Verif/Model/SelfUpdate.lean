import Verif.Base.Map
import Verif.Base.Words
import Verif.Model.Requirement
/-!
# `src/cli/commands/self_update.rs`: replacing the program by a release

For systems other than Windows.  What is downloaded, what an archive holds, checksums of contents and the order in which directories
are listed are parameters.  The command is a list of steps, so that a crash leaves what a prefix of the list leaves (a step that
writes below the temporary directory may then be half done; the last step, a rename, may not).  Printing is left out, except for the
answer of `--check`.
-/
namespace Rez.SelfUpdate
open Rez

/-- self_update.rs:22-38 `SelfUpdateArgs`; `verbose` only prints. -/
structure Args where
  version : Option Str
  check : Bool
  force : Bool

/-- A path below the temporary directory. -/
abbrev Path := List Str

/-- What the command is given. -/
structure Env (B : Type) where
  /-- `CARGO_PKG_VERSION` -/
  current : Str
  /-- 105-116: is there `curl` or `wget`? -/
  downloader : Bool
  /-- 182-188: the text of the latest release -/
  latest : Option Str
  /-- 55-80: the platform; `none` if it is not supported -/
  target : Option Str
  /-- can the temporary directory be made? -/
  temp : Bool
  /-- 126-146: the archive of a release, by version and name -/
  archive : Str → Str → Option B
  /-- 375-388: the checksums of a release, as a text -/
  sums : Str → Option Str
  /-- SHA-256 in lower case -/
  sha : B → Str
  /-- 196-226: what an archive holds; `none` if it cannot be unpacked -/
  unpack : B → Option (List (Path × B))
  /-- the text as a file -/
  file : Str → B
  /-- 245-260: the files in the order in which they are listed -/
  walk : List (Path × B) → List (Path × B)
  /-- 414: is the program's own path known? -/
  self : Bool
  /-- 263-272: can files be moved from the temporary directory to the program's? -/
  movable : Bool

/-- The program and the files below the temporary directory of this version. -/
structure World (B : Type) where
  exe : B
  temp : List (Path × B)

/-- A step. -/
inductive Step (B : Type) where
  | write (p : Path) (b : B)
  | clear
  | install (p : Path) (b : B)

/-- What a step does. -/
def Step.apply {B : Type} (s : Step B) (w : World B) : World B :=
  match s with
  | .write p b => { w with temp := mset w.temp p b }
  | .clear => { w with temp := [] }
  | .install p b => ⟨b, mdel w.temp p⟩

/-- What steps do. -/
def runSteps {B : Type} (l : List (Step B)) (w : World B) : World B := l.foldl (fun w s => s.apply w) w

/-- `str::lines`. -/
def linesOf (s : Str) : List Str :=
  (splitChar '\n' s).dropLast.map (fun l => if l.getLast? = some '\r' then l.dropLast else l) ++
    (splitChar '\n' s).getLast?.toList.filter fun l => !l.isEmpty

/-- `trim_start_matches('v')`. -/
def dropVs (s : Str) : Str := s.dropWhile fun c => c = 'v'

/-- `trim_matches` for quotes, commas and spaces. -/
def trimMarks (s : Str) : Str :=
  let p : Char → Bool := fun c => c = '"' || c = ',' || c = ' '
  ((s.dropWhile p).reverse.dropWhile p).reverse

/-- self_update.rs:167-179 `parse_tag_name`. -/
def tagName (json : Str) : Option Str :=
  match (linesOf json).find? fun l => containsStr l c!"\"tag_name\"" with
  | none => none
  | some l =>
    match splitOnce c!":" l with
    | none => none
    | some (_, rest) => some (dropVs (trimMarks (trim rest)))

/-- self_update.rs:296-302: the version to install. -/
def targetVersion {B : Type} (e : Env B) (a : Args) : Option Str :=
  match a.version with
  | some v => some (dropVs v)
  | none => e.latest.bind tagName

/-- `is_ascii_hexdigit`. -/
def isHex (c : Char) : Bool := isDigit c || (97 ≤ c.toNat && c.toNat ≤ 102) || (65 ≤ c.toNat && c.toNat ≤ 70)

/-- `to_ascii_lowercase`. -/
def lowerAscii (c : Char) : Char := if 65 ≤ c.toNat && c.toNat ≤ 90 then Char.ofNat (c.toNat + 32) else c

/-- self_update.rs:425-451 `checksum_for_asset`; the length is in bytes, which for hexadecimal digits is the number of characters. -/
def checksumIn (name : Str) : List Str → Option Str
  | [] => none
  | line :: lines =>
    match splitWs line with
    | hash :: file :: more =>
      if file ≠ name then checksumIn name lines
      else if !more.isEmpty || hash.length ≠ 64 || !hash.all isHex then none
      else some (hash.map lowerAscii)
    | _ => checksumIn name lines

/-- self_update.rs:425-451 `checksum_for_asset`. -/
def checksumFor (sums name : Str) : Option Str := checksumIn name (linesOf sums)

/-- self_update.rs:344-352: the name of the archive. -/
def archiveName (target : Str) : Str := c!"rez-next-" ++ target ++ c!".tar.gz"

/-- self_update.rs:229-243: the names of the program. -/
def isProgram (p : Path) : Bool := p.getLast? == some c!"rez-next" || p.getLast? == some c!"rez-next.exe"

/-- What the command answers. -/
inductive Answer where
  /-- 306-307 -/
  | upToDate
  /-- 308-318 -/
  | available (version : Str)
  /-- 321-328 -/
  | already
  /-- 421 -/
  | updated (version : Str)
  | failed
deriving DecidableEq

/-- self_update.rs:402-419: from the verified archive on. -/
def install {B : Type} (e : Env B) (w : World B) (version : Str) (b : B) : List (Step B) × Answer :=
  match e.unpack b with
  | none => ([.clear], .failed)
  | some files =>
    let steps := files.map fun f => Step.write f.1 f.2
    match (e.walk (runSteps steps w).temp).find? fun f => isProgram f.1 with
    | none => (steps ++ [.clear], .failed)
    | some f =>
      if !e.self || !e.movable then (steps, .failed)
      else (steps ++ [.install f.1 f.2, .clear], .updated version)

/-- self_update.rs:363-400: the downloads. -/
def download {B : Type} (e : Env B) (w : World B) (version target : Str) : List (Step B) × Answer :=
  match e.archive version (archiveName target) with
  | none => ([.clear], .failed)
  | some b =>
    let s1 := Step.write [archiveName target] b
    match e.sums version with
    | none => ([s1, .clear], .failed)
    | some text =>
      let s2 := Step.write [c!"checksums-sha256.txt"] (e.file text)
      match checksumFor text (archiveName target) with
      | none => ([s1, s2, .clear], .failed)
      | some expected =>
        if e.sha b ≠ expected then ([s1, s2, .clear], .failed)
        else
          let r := install e (runSteps [s1, s2] w) version b
          (s1 :: s2 :: r.1, r.2)

/-- self_update.rs:290-423 `execute`: the steps and the answer. -/
def execute {B : Type} (e : Env B) (a : Args) (w : World B) : List (Step B) × Answer :=
  if !e.downloader then ([], .failed)
  else match targetVersion e a with
    | none => ([], .failed)
    | some v =>
      if a.check then ([], if v = e.current then .upToDate else .available v)
      else if v = e.current ∧ a.force = false then ([], .already)
      else match e.target with
        | none => ([], .failed)
        | some t => if !e.temp then ([], .failed) else download e w v t

end Rez.SelfUpdate
