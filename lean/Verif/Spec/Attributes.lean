import Verif.Model.Attributes
import Verif.Spec.Search
/-!
# Specification vocabulary for package data as text

A fragment of Python: assignments at the top of a file whose right sides are literals, lists of them, or tuples of one; and two
of the ways in which YAML writes texts.
-/
namespace Rez.Spec.Attributes
open Rez Rez.Attributes

/-- Python values. -/
inductive PVal where
  | none
  | bool (b : Bool)
  | int (i : Int)
  | str (s : Str)
  | list (l : List PVal)
  /-- a tuple of one -/
  | tuple (v : PVal)

/-- Characters that stand for themselves in every Python string. -/
def Clean (c : Char) : Prop := c ≠ '\\' ∧ c ≠ '\r' ∧ c ≠ '\x00'

/-- What is between two quotes `q`, and the string that it stands for. -/
inductive Quoted (q : Char) : Str → Str → Prop
  | done : Quoted q [] []
  | char {c : Char} {s m : Str} : Clean c → c ≠ q → c ≠ '\n' → Quoted q s m → Quoted q (c :: s) (c :: m)
  | backslash {s m : Str} : Quoted q s m → Quoted q ('\\' :: '\\' :: s) ('\\' :: m)
  | newline {s m : Str} : Quoted q s m → Quoted q ('\\' :: 'n' :: s) ('\n' :: m)
  | quote {s m : Str} : Quoted q s m → Quoted q ('\\' :: q :: s) (q :: m)

/-- What is between three single quotes, and the string that it stands for.  A quote must not be the last character, and three
quotes must not come together. -/
inductive Tripled : Str → Str → Prop
  | done : Tripled [] []
  | char {c : Char} {s m : Str} : Clean c → c ≠ '\'' → Tripled s m → Tripled (c :: s) (c :: m)
  | escaped {s m : Str} : Tripled s m → Tripled ('\\' :: '\'' :: s) ('\'' :: m)
  | quote {s m : Str} : s ≠ [] → ¬ c!"''" <+: s → Tripled s m → Tripled ('\'' :: s) ('\'' :: m)

/-- Spaces and line breaks, which do not count inside brackets. -/
def Blank (s : Str) : Prop := ∀ c ∈ s, c = ' ' ∨ c = '\n'

mutual
/-- Expressions. -/
inductive Expr : Str → PVal → Prop
  | none : Expr c!"None" .none
  | true : Expr c!"True" (.bool true)
  | false : Expr c!"False" (.bool false)
  | nat (n : Nat) : Expr (decimal n) (.int n)
  | neg (n : Nat) : Expr ('-' :: decimal n) (.int (-n))
  | single {s m : Str} : Quoted '\'' s m → Expr ('\'' :: (s ++ ['\''])) (.str m)
  | double {s m : Str} : Quoted '"' s m → Expr ('"' :: (s ++ ['"'])) (.str m)
  | triple {s m : Str} : Tripled s m → Expr (c!"'''" ++ s ++ c!"'''") (.str m)
  | list {s : Str} {l : List PVal} : Items s l → Expr ('[' :: (s ++ [']'])) (.list l)
/-- What is between brackets. -/
inductive Items : Str → List PVal → Prop
  | none {s : Str} : Blank s → Items s []
  | last {a s b : Str} {e : PVal} : Blank a → Expr s e → Blank b → Items (a ++ s ++ b) [e]
  | more {a s rest : Str} {e : PVal} {l : List PVal} : Blank a → Expr s e → Items rest l → Items (a ++ s ++ ',' :: rest) (e :: l)
end

/-- The words that are no names. -/
def keywords : List Str :=
  [c!"False", c!"None", c!"True", c!"and", c!"as", c!"assert", c!"async", c!"await", c!"break", c!"class", c!"continue", c!"def",
   c!"del", c!"elif", c!"else", c!"except", c!"finally", c!"for", c!"from", c!"global", c!"if", c!"import", c!"in", c!"is", c!"lambda",
   c!"nonlocal", c!"not", c!"or", c!"pass", c!"raise", c!"return", c!"try", c!"while", c!"with", c!"yield"]

/-- A name. -/
def Name (n : Str) : Prop := n.all isTok = true ∧ (∃ c t, n = c :: t ∧ isDigit c = false) ∧ n ∉ keywords

/-- Files, and the names that they bind, in order. -/
inductive Module : Str → List (Str × PVal) → Prop
  | done : Module [] []
  | blank {s : Str} {l : List (Str × PVal)} : Module s l → Module ('\n' :: s) l
  | comment {t s : Str} {l : List (Str × PVal)} : '\n' ∉ t → Module s l → Module ('#' :: t ++ c!"\n" ++ s) l
  | last {n t : Str} {e : PVal} : Name n → Expr t e → Module (n ++ c!" = " ++ t) [(n, e)]
  | assign {n t s : Str} {e : PVal} {l : List (Str × PVal)} : Name n → Expr t e → Module s l →
      Module (n ++ c!" = " ++ t ++ c!"\n" ++ s) ((n, e) :: l)
  /-- a comma behind an expression makes a tuple -/
  | tuple {n t s : Str} {e : PVal} {l : List (Str × PVal)} : Name n → Expr t e → Module s l →
      Module (n ++ c!" = " ++ t ++ c!",\n" ++ s) ((n, .tuple e) :: l)

mutual

/-- The Python value of data. -/
def pval : Datum → PVal
  | .null => .none
  | .bool b => .bool b
  | .int i => .int i
  | .float f => .str f
  | .str s => .str s
  | .arr l => .list (pvals l)
  | .obj _ => .none

def pvals : List Datum → List PVal
  | [] => []
  | x :: l => pval x :: pvals l

end

/-- A text that can be written: its characters stand for themselves, and it does not end in a quote if it must stand between three
of them. -/
def Writable (s : Str) : Prop :=
  (∀ c ∈ s, Clean c) ∧ ('\n' ∈ s ∨ ('\'' ∈ s ∧ '"' ∈ s) → s.getLast? ≠ some '\'')

mutual

/-- Data without objects, floats, integers beyond 63 bits and texts that cannot be written. -/
def Simple : Datum → Prop
  | .null => True
  | .bool _ => True
  | .int i => i < 2 ^ 63
  | .float _ => False
  | .str s => Writable s
  | .arr l => SimpleAll l
  | .obj _ => False

def SimpleAll : List Datum → Prop
  | [] => True
  | x :: l => Simple x ∧ SimpleAll l

end

/-- `a` stands before `b` in a file: by their places in the table; keys of the table before others; others as in a dictionary. -/
def Before (a b : Str) : Prop :=
  (∃ p q r, keyOrder = p ++ a :: q ++ b :: r) ∨ (a ∈ keyOrder ∧ b ∉ keyOrder) ∨
    (a ∉ keyOrder ∧ b ∉ keyOrder ∧ cmpStr a b = .lt)

/-- Every value but the last as a tuple of one. -/
def tupled : List (Str × PVal) → List (Str × PVal)
  | [] => []
  | [e] => [e]
  | e :: l => (e.1, .tuple e.2) :: tupled l

/-! ## YAML -/

/-- Printable ASCII. -/
def Printable (c : Char) : Prop := 32 ≤ c.toNat ∧ c.toNat ≤ 126

/-- Between single quotes, on one line. -/
inductive YamlQuoted : Str → Str → Prop
  | done : YamlQuoted [] []
  | char {c : Char} {s m : Str} : Printable c → c ≠ '\'' → YamlQuoted s m → YamlQuoted (c :: s) (c :: m)
  | quote {s m : Str} : YamlQuoted s m → YamlQuoted ('\'' :: '\'' :: s) ('\'' :: m)

/-- The text of lines, each with its line break; line breaks at the end count as one. -/
def clip (ls : List Str) : Str := ((ls.reverse.dropWhile (·.isEmpty)).reverse).flatMap (· ++ c!"\n")

/-- The lines of a block that is indented by `n`: empty, or `n` spaces and the line. -/
def BlockLines (n : Nat) (s : Str) (ls : List Str) : Prop :=
  s = ls.flatMap (fun l => if l = [] then c!"\n" else List.replicate n ' ' ++ l ++ c!"\n") ∧
  (∀ l ∈ ls, ∀ c ∈ l, Printable c) ∧
  -- the first line that is not empty gives the indentation
  ∀ l, ls.find? (fun l => !l.isEmpty) = some l → l.head? ≠ some ' '

/-- A YAML scalar, and the text that it stands for. -/
inductive Scalar : Str → Str → Prop
  | quoted {s m : Str} : YamlQuoted s m → Scalar ('\'' :: (s ++ ['\''])) m
  | block {n : Nat} {s : Str} {ls : List Str} : 0 < n → BlockLines n s ls → Scalar (c!"|\n" ++ s) (clip ls)

end Rez.Spec.Attributes
