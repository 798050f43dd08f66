import Verif.Base.Text
/-!
# Specification vocabulary for versions

Nothing here refers to the model; only to character classes, lists and numbers.
-/
namespace Rez.Spec
open Rez

/-- `t0 s0 t1 s1 ... tn`: tokens with the separators written between them. -/
def interleave : List Str → List Str → Str
  | [], _ => []
  | [t], _ => t
  | t :: ts, s :: ss => t ++ s ++ interleave ts ss
  | t :: ts, [] => t ++ interleave ts []

/-- A well-formed version token. -/
structure TokenWf (t : Str) : Prop where
  nonempty : t ≠ []
  /-- ASCII letters, digits and underscores only -/
  chars : ∀ c ∈ t, isAlpha c = true ∨ isDigit c = true ∨ c = '_'
  noUnderscoreStart : t.head? ≠ some '_'
  noUnderscoreEnd : t.getLast? ≠ some '_'
  notLongWord : (∀ c ∈ t, isAlpha c = true) → t.length ≤ 10
  notReserved : t ≠ c!"not" ∧ t ≠ c!"version"

/-- The version grammar: `s` is spelled by tokens `ts` separated by `seps`. -/
structure Spells (s : Str) (ts seps : List Str) : Prop where
  spelling : s = interleave ts seps
  oneSepBetween : seps.length + 1 = ts.length
  atMostTen : ts.length ≤ 10
  atMostFiveNumeric : (ts.filter (fun t => t.all isDigit)).length ≤ 5
  separators : ∀ p ∈ seps, p = c!"." ∨ p = c!"-" ∨ p = c!"+"
  tokens : ∀ t ∈ ts, TokenWf t
  noVPrefix : s.head? ≠ some 'v' ∧ s.head? ≠ some 'V'

/-- Every run of digits inside `t` denotes a number below `bound`. -/
def DigitRunsBelow (bound : Nat) (t : Str) : Prop :=
  ∀ d : Str, d <:+: t → (∀ c ∈ d, isDigit c = true) → digitsVal d < bound

/-- No run of digits in `t` starts with a `0` that is followed by another digit. -/
def NoLeadingZero (t : Str) : Prop :=
  ∀ p d q, t = p ++ '0' :: d :: q → isDigit d = true → ∃ e, p.getLast? = some e ∧ isDigit e = true

/-- `a.b.c`: the decimal numerals of the list, separated by dots. -/
def dotted (ns : List Nat) : Str := joinWith c!"." (ns.map decimal)

/-- Lexicographic comparison of number lists (used for lists of equal length). -/
def lexNat : List Nat → List Nat → Ordering
  | [], [] => .eq
  | [], _ :: _ => .lt
  | _ :: _, [] => .gt
  | a :: as, b :: bs => if a < b then .lt else if b < a then .gt else lexNat as bs

end Rez.Spec
