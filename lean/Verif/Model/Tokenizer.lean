import Verif.Model.Version
import Verif.Base.Map
/-!
# The second tokenizer of versions: `rez-next-version/src/parser.rs`

The tokenizer works on ASCII token characters, so `char::is_alphabetic` is `isAlpha` there and lengths in bytes are lengths.  The
pool of interned texts is shared by all threads and guarded by a lock; each locked section is one step.
-/
namespace Rez.Tokenizer
open Rez

/-- parser.rs:15-20 `TokenType`; separators are never made as tokens. -/
inductive Token where
  | numeric (n : Nat)
  | word (s : Str)
  deriving DecidableEq, Repr

/-- parser.rs:23-28 `ParseState`. -/
inductive State where
  | start
  | inToken
  | inSeparator
  deriving DecidableEq, Repr

/-- parser.rs:31-38 `StateMachineParser`. -/
structure Parser where
  useInterning : Bool
  maxTokens : Nat
  maxNumeric : Nat

/-- parser.rs:43-49 `new`. -/
def Parser.new : Parser := ⟨true, 10, 5⟩

/-- parser.rs:95-97 `is_valid_separator`. -/
def isSeparator (c : Char) : Bool := c == '.' || c == '-' || c == '_' || c == '+'

/-- parser.rs:100-102 `is_token_char`. -/
def isTokenChar (c : Char) : Bool := isTok c

/-- parser.rs:209-231: what makes a token invalid. -/
def invalid (t : Str) : Bool :=
  t.isEmpty || (t.head? == some '_' || t.getLast? == some '_') || (t == c!"not" || t == c!"version") ||
  (t.all isAlpha && decide (t.length > 10))

/-- parser.rs:234-247: the token of a text. -/
def tokenOf (intern : Str → Str) (t : Str) : Token :=
  if t.all isDigit then
    match parseU64 t with
    | some n => .numeric n
    | none => .word (intern t)
  else .word (intern t)

/-- What the loop has made so far. -/
structure Made where
  tokens : List Token
  separators : Str
  numeric : Nat

/-- parser.rs:203-251 `finalize_token`; `none` is `Err`. -/
def finalize (intern : Str → Str) (cur : Str) (m : Made) : Option Made :=
  if invalid cur then none
  else
    match tokenOf intern cur with
    | .numeric n => some { m with tokens := m.tokens ++ [.numeric n], numeric := m.numeric + 1 }
    | .word s => some { m with tokens := m.tokens ++ [.word s] }

/-- parser.rs:121-180: the loop over the characters, and what follows it. -/
def loop (intern : Str → Str) : State → Str → Made → Str → Option Made
  | .start, _, m, [] => some m
  | .inToken, cur, m, [] => if cur.isEmpty then some m else finalize intern cur m
  | .inSeparator, _, _, [] => none
  | .start, cur, m, c :: cs => if isTokenChar c then loop intern .inToken (cur ++ [c]) m cs else none
  | .inToken, cur, m, c :: cs =>
    if isTokenChar c then loop intern .inToken (cur ++ [c]) m cs
    else if isSeparator c then
      match finalize intern cur m with
      | some m' => loop intern .inSeparator [] { m' with separators := m'.separators ++ [c] } cs
      | none => none
    else none
  | .inSeparator, cur, m, c :: cs => if isTokenChar c then loop intern .inToken (cur ++ [c]) m cs else none

/-- parser.rs:107-199 `parse_tokens`; `none` is `Err`. -/
def parseTokens (p : Parser) (intern : Str → Str) (input : Str) : Option (List Token × Str) :=
  if input.isEmpty then some ([], [])
  else
    match loop intern .start [] ⟨[], [], 0⟩ input with
    | none => none
    | some m =>
      if m.tokens.length > p.maxTokens then none
      else if m.numeric > p.maxNumeric then none
      else some (m.tokens, m.separators)

/-! ## The pool -/

/-- parser.rs:11-12 `STRING_INTERN_POOL`. -/
abbrev Pool := List (Str × Str)

/-- Where a call of `intern_string` is. -/
inductive Call where
  /-- it has not looked yet -/
  | begun (s : Str)
  /-- it has looked under the read lock and found nothing -/
  | missed (s : Str)
  | done (s result : Str)

/-- parser.rs:62-92 `intern_string`, one locked section at a time. -/
def Call.step (p : Parser) (pool : Pool) : Call → Pool × Call
  | .begun s =>
    if !p.useInterning || decide (s.length > 64) then (pool, .done s s)
    else match mget pool s with
      | some t => (pool, .done s t)
      | none => (pool, .missed s)
  | .missed s =>
    match mget pool s with
    | some t => (pool, .done s t)
    | none => if pool.length < 10000 then (mset pool s s, .done s s) else (pool, .done s s)
  | .done s r => (pool, .done s r)

end Rez.Tokenizer
