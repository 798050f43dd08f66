import Verif.Model.Tokenizer
import Verif.Spec.Version
/-!
# Specification vocabulary for the second tokenizer of versions
-/
namespace Rez.Spec.Tokenizer
open Rez Rez.Spec Rez.Tokenizer

/-- `s` is spelled by the words `ws`, with the characters of `seps` between them. -/
structure Words (s : Str) (ws : List Str) (seps : Str) : Prop where
  spelling : s = interleave ws (seps.map fun c => [c])
  oneBetween : seps.length + 1 = ws.length
  separators : ∀ c ∈ seps, c = '.' ∨ c = '-' ∨ c = '+'
  words : ∀ w ∈ ws, TokenWf w

/-- A number that has a place in 64 bits. -/
def Number (w : Str) : Prop := (∀ c ∈ w, isDigit c = true) ∧ digitsVal w < 2 ^ 64

instance (w : Str) : Decidable (Number w) := inferInstanceAs (Decidable (_ ∧ _))

/-- What a word stands for: a number, or else its text. -/
def meaning (w : Str) : Token := if Number w then .numeric (digitsVal w) else .word w

/-- The calls, the pool, and who goes on: any order of the threads. -/
def run : Pool × List (Parser × Call) → List Nat → Pool × List (Parser × Call)
  | s, [] => s
  | (pool, calls), i :: order =>
    match calls[i]? with
    | some (p, c) => run ((c.step p pool).1, calls.set i (p, (c.step p pool).2)) order
    | none => run (pool, calls) order

/-- The calls at their beginning. -/
def begin (l : List (Parser × Str)) : List (Parser × Call) := l.map fun e => (e.1, .begun e.2)

/-- The text that a call was made with. -/
def textOf : Call → Str
  | .begun s => s
  | .missed s => s
  | .done s _ => s

/-- What it has given back. -/
def resultOf : Call → Option Str
  | .done _ r => some r
  | _ => none

end Rez.Spec.Tokenizer
