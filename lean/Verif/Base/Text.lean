/-!
# Text primitives

Rust `str`/`String` values are modelled as `List Char`.  Only the standard-library operations that the
modelled code calls are defined here; each follows the documented behaviour of the Rust function it names.
-/

open Lean in
/-- `c!"abc"` is the character list `['a', 'b', 'c']`. -/
macro:max "c!" s:str : term => do
  let cs := s.getString.toList.map (fun c => Syntax.mkCharLit c)
  `(([$(cs.toArray),*] : List Char))

namespace Rez

/-- A Rust string: the list of its `char`s. -/
abbrev Str := List Char

/-- `impl Ord for str`: byte-wise on UTF-8, which is code-point order. -/
def cmpStr : Str → Str → Ordering
  | [], [] => .eq
  | [], _ :: _ => .lt
  | _ :: _, [] => .gt
  | a :: as, b :: bs => (compare a.toNat b.toNat).then (cmpStr as bs)

/-- `char::is_whitespace`: the Unicode `White_Space` code points. -/
def isWs (c : Char) : Bool :=
  let n := c.toNat
  (9 ≤ n && n ≤ 13) || n == 0x20 || n == 0x85 || n == 0xA0 || n == 0x1680 ||
  (0x2000 ≤ n && n ≤ 0x200A) || n == 0x2028 || n == 0x2029 || n == 0x202F || n == 0x205F || n == 0x3000

/-- `str::trim_start` -/
def trimStart (s : Str) : Str := s.dropWhile isWs
/-- `str::trim_end` -/
def trimEnd (s : Str) : Str := (s.reverse.dropWhile isWs).reverse
/-- `str::trim` -/
def trim (s : Str) : Str := trimEnd (trimStart s)

/-- `str::contains(&str)` -/
def containsStr (s pat : Str) : Bool :=
  match s with
  | [] => pat.isEmpty
  | c :: cs => pat.isPrefixOf (c :: cs) || containsStr cs pat

/-- `char::is_ascii_digit` -/
def isDigit (c : Char) : Bool := 48 ≤ c.toNat && c.toNat ≤ 57
/-- ASCII letters.  `char::is_alphabetic` restricted to ASCII. -/
def isAlpha (c : Char) : Bool :=
  (65 ≤ c.toNat && c.toNat ≤ 90) || (97 ≤ c.toNat && c.toNat ≤ 122)
/-- The regex class `[a-zA-Z0-9_]`. -/
def isTok (c : Char) : Bool := isAlpha c || isDigit c || c == '_'

/-- Value of a list of decimal digits. -/
def digitsVal (s : Str) : Nat := s.foldl (fun a c => 10 * a + (c.toNat - 48)) 0

/-- decimal digits of `n`, most significant first; `fuel` bounds the number of digits -/
def decimalAux : Nat → Nat → Str
  | 0, _ => []
  | f + 1, n => if n < 10 then [Char.ofNat (48 + n)] else decimalAux f (n / 10) ++ [Char.ofNat (48 + n % 10)]

/-- `format!("{}", n)` for an unsigned integer. -/
def decimal (n : Nat) : Str := decimalAux (n + 1) n

/-- one optional leading `+` -/
def stripPlus : Str → Str
  | '+' :: r => r
  | r => r

/-- `str::parse::<u64>().ok()`: optional `+`, at least one digit, value below 2^64. -/
def parseU64 (s : Str) : Option Nat :=
  let t := stripPlus s
  if !t.isEmpty && t.all isDigit && decide (digitsVal t < 2 ^ 64) then some (digitsVal t) else none

/-- `str::parse::<i64>().ok()`: optional sign, at least one digit, value in range. -/
def parseI64 (s : Str) : Option Int :=
  match s with
  | '-' :: r =>
    if !r.isEmpty && r.all isDigit && decide (digitsVal r ≤ 2 ^ 63) then some (-(digitsVal r : Int)) else none
  | '+' :: r =>
    if !r.isEmpty && r.all isDigit && decide (digitsVal r < 2 ^ 63) then some (digitsVal r : Int) else none
  | r =>
    if !r.isEmpty && r.all isDigit && decide (digitsVal r < 2 ^ 63) then some (digitsVal r : Int) else none

/-- `char::to_lowercase` on ASCII. -/
def lowerChar (c : Char) : Char :=
  if 65 ≤ c.toNat && c.toNat ≤ 90 then Char.ofNat (c.toNat + 32) else c

/-- `str::split(char)` -/
def splitChar (d : Char) : Str → List Str
  | [] => [[]]
  | c :: cs =>
    if c == d then [] :: splitChar d cs
    else match splitChar d cs with
      | [] => [[c]]
      | p :: ps => (c :: p) :: ps

/-- `[String]::join(sep)` -/
def joinWith (sep : Str) : List Str → Str
  | [] => []
  | [p] => p
  | p :: q :: ps => p ++ sep ++ joinWith sep (q :: ps)

/-- `str::find(&str)`: the text before and after the first occurrence of `pat`. -/
def splitOnce (pat : Str) : Str → Option (Str × Str)
  | [] => if pat.isEmpty then some ([], []) else none
  | c :: cs =>
    if pat.isPrefixOf (c :: cs) then some ([], (c :: cs).drop pat.length)
    else (splitOnce pat cs).map fun (a, b) => (c :: a, b)

end Rez
