import Verif.Base.Map
/-!
# The payload cache

`crates/rez-next-package/src/package_cache.rs`, `PackageCache`.  All work on one variant happens in one directory,
`<root>/<name>/<version>/<hash prefix>` (package_cache.rs:309-320 `hash_path`), and different directories do not meet, so
the model is one such directory.  A handle is the text it is compared by (`hashable_repr`, see `Model/Handle.lean`).  An
operation is a list of file-system steps, computed when it starts; a crash leaves a prefix of them done.
-/
namespace Rez.Payload

/-- A metadata file: complete, or cut short so that it cannot be read. -/
inductive Meta (H : Type) where
  | whole (handle : H) (accessed : Nat)
  | torn

/-- A file of a payload: complete, or cut short. -/
abbrev Files (F C : Type) := List (F × Option C)

/-- One hash directory: `.copying-<x>` flags with their times, `<x>.json` and `<x>/`, by increment `<x>`. -/
structure Bucket (H F C : Type) where
  flags : List (Str × Nat)
  metas : List (Str × Meta H)
  payloads : List (Str × Files F C)

/-- One step on the file system. -/
inductive Step (H F C : Type) where
  | flag (inc : Str) (now : Nat)
  | unflag (inc : Str)
  | tearMeta (inc : Str)
  | writeMeta (inc : Str) (handle : H) (accessed : Nat)
  | dropMeta (inc : Str)
  | mkdir (inc : Str)
  | tearFile (inc : Str) (file : F)
  | writeFile (inc : Str) (file : F) (content : C)
  | dropPayload (inc : Str)

variable {H F C : Type} [DecidableEq H] [DecidableEq F]

/-- What the steps do.  `mkdir` is `create_dir_all`, which leaves a directory that is there as it is. -/
def Step.apply (b : Bucket H F C) : Step H F C → Bucket H F C
  | .flag inc now => { b with flags := mset b.flags inc now }
  | .unflag inc => { b with flags := mdel b.flags inc }
  | .tearMeta inc => { b with metas := mset b.metas inc .torn }
  | .writeMeta inc h t => { b with metas := mset b.metas inc (.whole h t) }
  | .dropMeta inc => { b with metas := mdel b.metas inc }
  | .mkdir inc => { b with payloads := mset b.payloads inc ((mget b.payloads inc).getD []) }
  | .tearFile inc f => { b with payloads := mupd b.payloads inc fun p => mset p f none }
  | .writeFile inc f c => { b with payloads := mupd b.payloads inc fun p => mset p f (some c) }
  | .dropPayload inc => { b with payloads := mdel b.payloads inc }

/-- package_cache.rs:47-71: the statuses that the modelled operations return. -/
inductive Status where
  | notFound | found | created | copying | copyStalled | removed | skipped
  deriving DecidableEq

/-- package_cache.rs:361-368: the entry holds this handle; metadata that cannot be read is skipped. -/
def holds (b : Bucket H F C) (h : H) (inc : Str) : Bool :=
  match mget b.metas inc with
  | some (.whole h' _) => h' == h
  | _ => false

/-- package_cache.rs:341-392 `get_cached_root`, without the path: the status, the increment, and the steps of
`update_access_time` (656-668).  `scan` is the order in which `read_dir` lists the directory. -/
def getCached (now : Nat) (scan : List Str) (b : Bucket H F C) (h : H) : Status × Option Str × List (Step H F C) :=
  match scan.find? (holds b h) with
  | none => (.notFound, none, [])
  | some inc =>
    match mget b.flags inc with
    | some t => (if now - t > 300 then .copyStalled else .copying, some inc, [])
    | none => (.found, some inc, [.tearMeta inc, .writeMeta inc h now])

/-- package_cache.rs:850-869 `increment_string`, on the reversed text; the empty text (an index out of bounds in the
code) does not occur. -/
def bumpRev : List Char → List Char
  | [] => ['a']
  | c :: cs => if c = 'z' then 'a' :: bumpRev cs else Char.ofNat (c.toNat + 1) :: cs

/-- package_cache.rs:850-869 `increment_string`. -/
def increment (s : Str) : Str := (bumpRev s.reverse).reverse

/-- Rust's order on `str`, by code points. -/
def strLt : Str → Str → Bool
  | [], [] => false
  | [], _ :: _ => true
  | _ :: _, [] => false
  | a :: s, b :: t => decide (a.toNat < b.toNat) || (a == b && strLt s t)

/-- package_cache.rs:685-701: the greatest name, in the order of text. -/
def maxName : List Str → Option Str
  | [] => none
  | x :: xs => some (xs.foldl (fun cur y => if strLt cur y then y else cur) x)

/-- package_cache.rs:682-708 `next_increment`. -/
def nextIncrement (scan : List Str) : Str :=
  match maxName scan with
  | none => c!"a"
  | some m => increment m

/-- package_cache.rs:711-727 `copy_dir_recursive`: a directory, then each file; `fs::copy` truncates, then fills.  The
files are listed by their path below the source. -/
def copySteps (inc : Str) (src : List (F × C)) : List (Step H F C) :=
  .mkdir inc :: src.flatMap fun p => [.tearFile inc p.1, .writeFile inc p.1 p.2]

/-- package_cache.rs:446-480: the steps of `add_variant` once it has decided to copy. -/
def fillSteps (now : Nat) (inc : Str) (h : H) (src : List (F × C)) : List (Step H F C) :=
  [.flag inc now, .tearMeta inc, .writeMeta inc h now] ++ copySteps inc src ++ [.unflag inc]

/-- package_cache.rs:407-482 `add_variant`, for a source that is a directory.  `space` is `force` or the outcome of the
space check. -/
def addVariant (now : Nat) (scan : List Str) (space : Bool) (b : Bucket H F C) (h : H) (src : List (F × C)) :
    Status × Option Str × List (Step H F C) :=
  match getCached now scan b h with
  | (.notFound, _, steps) =>
    if space then
      let inc := nextIncrement scan
      (.created, some inc, steps ++ fillSteps now inc h src)
    else (.skipped, none, steps)
  | r => r

/-- package_cache.rs:488-523 `remove_variant`: the payload is moved away, then the metadata goes. -/
def removeVariant (now : Nat) (scan : List Str) (b : Bucket H F C) (h : H) : Status × Option Str × List (Step H F C) :=
  match getCached now scan b h with
  | (.found, some inc, steps) => (.removed, some inc, steps ++ [.dropPayload inc, .dropMeta inc])
  | r => r

/-- All steps of an operation, or a prefix. -/
def applyAll (b : Bucket H F C) (steps : List (Step H F C)) : Bucket H F C := steps.foldl Step.apply b

/-- package_cache.rs:602-641: the second half of `clean`, on one directory: old entries are removed.  `now - accessed`
wraps. -/
def cleanOne (now maxAge : Nat) (scan : Bucket H F C → List Str) (b : Bucket H F C) (inc : Str) (h : H) : Bucket H F C :=
  if (mget b.payloads inc).isSome then
    match mget b.metas inc with
    | some (.whole _ accessed) =>
      if (now + 2 ^ 64 - accessed) % 2 ^ 64 > maxAge then applyAll b (removeVariant now (scan b) b h).2.2 else b
    | _ => b
  else b

/-- package_cache.rs:566-577: the entries of `list_cached` in one directory. -/
def listed (scan : List Str) (b : Bucket H F C) : List (Str × H) :=
  scan.filterMap fun inc => match mget b.metas inc with
    | some (.whole h _) => some (inc, h)
    | _ => none

/-- package_cache.rs:611-641: `clean` goes through the list made at its start. -/
def clean (now maxAge : Nat) (scan : Bucket H F C → List Str) (b : Bucket H F C) : Bucket H F C :=
  ((listed (scan b) b).filter fun p => (mget b.payloads p.1).isSome).foldl (fun b p => cleanOne now maxAge scan b p.1 p.2) b

/-- package_cache.rs:779-782 `check_disk_space`; the difference wraps. -/
def checkDiskSpace (available needed minFree : Nat) : Bool := decide ((available + 2 ^ 64 - needed) % 2 ^ 64 > minFree)

/-- package_cache.rs:805-815 `variant_meets_space_requirements`; the sum wraps. -/
def meetsSpace (available size minFree : Nat) : Bool := decide (available > (size + minFree) % 2 ^ 64)

end Rez.Payload
