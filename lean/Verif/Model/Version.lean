import Verif.Base.Text
/-!
# Model of `rez-next-version/src/version.rs`

Token characters are ASCII (the token regex only matches ASCII), so `char::is_alphabetic` and
`char::is_alphanumeric` are modelled by their ASCII restrictions when applied to tokens.
-/
namespace Rez

/-- version.rs:15-24 `struct Version` (the `cached_hash` field is never read and is omitted). -/
structure Version where
  tokens : List Str
  separators : List Str
  repr : Str
deriving DecidableEq, Repr

namespace Version

/-- version.rs:187-194 `inf`. -/
def inf : Version := ⟨[], [], c!"inf"⟩
/-- version.rs:205-212 `empty` (and 215 `epsilon`). -/
def empty : Version := ⟨[], [], []⟩
/-- version.rs:198-200 `is_inf`. -/
def isInf (v : Version) : Bool := v.repr == c!"inf"
/-- version.rs:220-222 `is_empty`. -/
def isEmpty (v : Version) : Bool := v.tokens.isEmpty && v.repr.isEmpty
/-- version.rs:58-60 `as_str`. -/
def asStr (v : Version) : Str := v.repr

end Version

/-- The decomposition computed by `TOKEN_REGEX.find_iter` and `TOKEN_REGEX.split` for the regex
`[a-zA-Z0-9_]+` (version.rs:94, 121): the text before the first match, then each match with the text that
follows it. -/
def tokenRuns : Str → Str × List (Str × Str)
  | [] => ([], [])
  | c :: cs =>
    let r := tokenRuns cs
    if isTok c then
      match r.1, r.2 with
      | [], (t, sep) :: rest => ([], (c :: t, sep) :: rest)
      | lead, rest => ([], ([c], lead) :: rest)
    else (c :: r.1, r.2)

/-- version.rs:144-173 the per-token checks. -/
def tokenOk (t : Str) : Bool :=
  t.all isTok &&
  !(t.head? == some '_' || t.getLast? == some '_') &&
  !(t.all isAlpha && decide (t.length > 10)) &&
  !(t == c!"not" || t == c!"version")

/-- version.rs:130-142 the per-separator checks (`sep.len()` is a byte length; a longer or non-ASCII
separator is rejected by the membership test as well). -/
def sepOk (s : Str) : Bool := s == c!"." || s == c!"-" || s == c!"_" || s == c!"+"

/-- version.rs:78-183 `parse_internal_gil_free`; `none` is `Err`. -/
def parseInternal (s : Str) : Option (List Str × List Str) :=
  if s.head? == some 'v' || s.head? == some 'V' then none
  else if containsStr s c!".." || s.head? == some '.' || s.getLast? == some '.' then none
  else
    let r := tokenRuns s
    let tokens := r.2.map Prod.fst
    if tokens.isEmpty then none
    else if (tokens.filter (fun t => t.all isDigit)).length > 5 then none
    else if tokens.length > 10 then none
    else
      let separators := r.1 :: r.2.map Prod.snd
      if !r.1.isEmpty || separators.getLast? != some [] then none
      else
        let middle := (r.2.map Prod.snd).dropLast
        if !middle.all sepOk then none
        else if !tokens.all tokenOk then none
        else some (tokens, middle)

namespace Version

/-- version.rs:273-300 `parse`; `none` is `Err`. -/
def parse (s : Str) : Option Version :=
  let s := trim s
  if s.isEmpty then some empty
  else if s == c!"inf" then some inf
  else if s == c!"epsilon" then some empty
  else match parseInternal s with
    | none => none
    | some (tokens, separators) => some ⟨tokens, separators, s⟩

end Version

/-- version.rs:344-345 "all alphabetic or `_`". -/
def allAlpha (t : Str) : Bool := t.all (fun c => isAlpha c || c == '_')
/-- version.rs:346-347 "all ASCII digits". -/
def allNum (t : Str) : Bool := t.all isDigit

/-- version.rs:386-409 `split_token_segments`: alternating digit / non-digit runs.  The loop with the
accumulator `current` is written as a right-to-left recursion; a character joins the run that starts at its
right neighbour exactly when both are digits or both are not. -/
def splitSegments : Str → List Str
  | [] => []
  | c :: cs =>
    match splitSegments cs with
    | (d :: ds) :: rest =>
      if isDigit c == isDigit d then (c :: d :: ds) :: rest else [c] :: (d :: ds) :: rest
    | rest => [c] :: rest

/-- version.rs:365-376 comparison of one pair of segments. -/
def cmpSegment (s1 s2 : Str) : Ordering :=
  match parseU64 s1, parseU64 s2 with
  | some n1, some n2 => compare n1 n2
  | none, none => cmpStr s1 s2
  | none, some _ => .lt
  | some _, none => .gt

/-- version.rs:364-381 the loop over zipped segments, then the length comparison. -/
def cmpSegments : List Str → List Str → Ordering
  | [], [] => .eq
  | [], _ :: _ => .lt
  | _ :: _, [] => .gt
  | a :: as, b :: bs => (cmpSegment a b).then (cmpSegments as bs)

/-- version.rs:333-382 `compare_single_token`. -/
def cmpToken (t1 t2 : Str) : Ordering :=
  match parseI64 t1, parseI64 t2 with
  | some n1, some n2 => compare n1 n2
  | _, _ =>
    if t1 == t2 then .eq
    else if allAlpha t1 && allNum t2 then .lt
    else if allNum t1 && allAlpha t2 then .gt
    else if allAlpha t1 && allAlpha t2 then cmpStr t1 t2
    else cmpSegments (splitSegments t1) (splitSegments t2)

/-- version.rs:417-473 `compare_token_strings`: the zip loop, then the extra-token rule.  (Both branches of
the "first extra token" test at 439-447 and 458-468 give the same result, so the test is dropped.) -/
def cmpTokens : List Str → List Str → Ordering
  | [], [] => .eq
  | [], b :: bs => if (b :: bs).all (fun t => t == c!"0") then .eq else .gt
  | a :: as, [] => if (a :: as).all (fun t => t == c!"0") then .eq else .lt
  | a :: as, b :: bs => (cmpToken a b).then (cmpTokens as bs)

namespace Version

/-- version.rs:303-322 `compare_rez` (also `Ord::cmp` 485-487, `PartialOrd` 491). -/
def cmp (a b : Version) : Ordering :=
  match a.isInf, b.isInf with
  | true, true => .eq
  | true, false => .gt
  | false, true => .lt
  | false, false =>
    match a.isEmpty, b.isEmpty with
    | true, true => .eq
    | true, false => .lt
    | false, true => .gt
    | false, false => cmpTokens a.tokens b.tokens

/-- version.rs:476-480 `PartialEq::eq`. -/
def eqv (a b : Version) : Bool := a.cmp b == .eq
/-- `a < b` through `PartialOrd` (version.rs:490-494). -/
def lt (a b : Version) : Bool := a.cmp b == .lt
/-- `a <= b` -/
def le (a b : Version) : Bool := a.cmp b != .gt
/-- `a > b` -/
def gt (a b : Version) : Bool := a.cmp b == .gt
/-- `a >= b` -/
def ge (a b : Version) : Bool := a.cmp b != .lt

/-- version.rs:496-500 `Hash::hash`: the hash of a version is the hash of its printed form, for an
arbitrary hash function on strings. -/
def hashWith {H : Type} (h : Str → H) (v : Version) : H := h v.repr

/-- version.rs:63-72 `has_prefix`. -/
def hasPrefix (v p : Version) : Bool :=
  decide (v.tokens.length ≥ p.tokens.length) &&
  (v.tokens.zip p.tokens).all (fun tp => cmpToken tp.1 tp.2 == .eq)

/-- version.rs:250-270 `is_prerelease`. -/
def isPrerelease (v : Version) : Bool :=
  if v.isEmpty || v.isInf then false
  else v.tokens.any fun t =>
    let l := t.map lowerChar
    containsStr l c!"alpha" || containsStr l c!"beta" || containsStr l c!"rc" ||
    containsStr l c!"dev" || containsStr l c!"pre" || containsStr l c!"snapshot"

/-- version.rs:230-242 `major`, `minor`, `patch` are the tokens 0, 1, 2 read as `u64`. -/
def component (v : Version) (i : Nat) : Option Nat := v.tokens[i]? >>= parseU64

end Version
end Rez
