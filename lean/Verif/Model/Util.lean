import Verif.Model.Requirement
/-!
# `rez-next-util/src/string.rs` and `time.rs`

`indent` and the functions that only read the clock or format a date are not modelled.
-/
namespace Rez.Util
open Rez

/-- string.rs:6-11 `normalize_name`; `lower` stands for `to_lowercase`. -/
def normalizeName (lower : Str → Str) (name : Str) : Str :=
  (lower name).map fun c => if c = ' ' || c = '-' then '_' else c

/-- string.rs:14-27 `is_valid_identifier`; `alpha` and `alnum` stand for `char::is_alphabetic` and `is_alphanumeric`. -/
def isIdentifier (alpha alnum : Char → Bool) : Str → Bool
  | [] => false
  | c :: cs => if !alpha c && c != '_' then false else cs.all fun d => alnum d || d == '_'

/-- `&s[..n]` with a byte index; `none` is the panic on an index inside a character or past the end. -/
def prefixBytes : Nat → Str → Option Str
  | 0, _ => some []
  | _ + 1, [] => none
  | n + 1, c :: cs => if c.utf8Size ≤ n + 1 then (prefixBytes (n + 1 - c.utf8Size) cs).map (c :: ·) else none

/-- string.rs:30-38 `truncate`. -/
def truncate (s : Str) (max : Nat) : Outcome Str :=
  if max ≤ 3 then .ok c!"..."
  else if byteLen s ≤ max - 3 then .ok s
  else match prefixBytes (max - 3) s with
    | some p => .ok (p ++ c!"...")
    | none => .panic

/-- string.rs:50-72 `to_python_identifier`. -/
def toIdentifier (alpha alnum : Char → Bool) (s : Str) : Str :=
  let s := s.map fun c => if c = '-' || c = ' ' then '_' else c
  let s := s.map fun c => if alnum c || c == '_' then c else '_'
  match s with
  | [] => c!"_"
  | c :: cs => if alpha c then c :: cs else '_' :: c :: cs

/-- string.rs:84-93: the loop of `format_list`; `i` is the index, `last` the last index. -/
def formatLoop (conjunction : Str) (last : Nat) : Nat → List Str → Str
  | _, [] => []
  | i, item :: items =>
    (if i = 0 then item
     else if i = last then c!", " ++ conjunction ++ c!" " ++ item
     else c!", " ++ item) ++ formatLoop conjunction last (i + 1) items

/-- string.rs:75-98 `format_list`, on the displayed items. -/
def formatList (conjunction : Str) : List Str → Str
  | [] => []
  | [a] => a
  | [a, b] => a ++ c!" " ++ conjunction ++ c!" " ++ b
  | items => formatLoop conjunction (items.length - 1) 0 items

/-- `str::strip_suffix(char)`. -/
def stripSuffix (c : Char) (s : Str) : Option Str := if s.getLast? = some c then some s.dropLast else none

/-- time.rs:36-68 `parse_duration`, in seconds.  The multiplications are those of a release build, which wrap; a debug
build panics instead.  `lower` stands for `to_lowercase`. -/
def parseDuration (lower : Str → Str) (s : Str) : Option Nat :=
  let s := lower (trim s)
  match stripSuffix 's' s with
  | some n => parseU64 (trim n)
  | none =>
    match stripSuffix 'm' s with
    | some n => (parseU64 (trim n)).map fun x => x * 60 % 2 ^ 64
    | none =>
      match stripSuffix 'h' s with
      | some n => (parseU64 (trim n)).map fun x => x * 3600 % 2 ^ 64
      | none =>
        match stripSuffix 'd' s with
        | some n => (parseU64 (trim n)).map fun x => x * 86400 % 2 ^ 64
        | none => parseU64 s

/-- time.rs:71-95 `human_time_diff`; `now` is the clock. -/
def humanDiff (now timestamp : Nat) : Str :=
  if now < timestamp then c!"in the future"
  else
    let diff := now - timestamp
    if diff < 60 then decimal diff ++ c!" seconds ago"
    else if diff < 3600 then decimal (diff / 60) ++ c!" minutes ago"
    else if diff < 86400 then decimal (diff / 3600) ++ c!" hours ago"
    else if diff < 604800 then decimal (diff / 86400) ++ c!" days ago"
    else if diff < 2592000 then decimal (diff / 604800) ++ c!" weeks ago"
    else if diff < 31536000 then decimal (diff / 2592000) ++ c!" months ago"
    else decimal (diff / 31536000) ++ c!" years ago"

end Rez.Util
