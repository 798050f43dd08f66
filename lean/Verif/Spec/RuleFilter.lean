import Verif.Model.RuleFilter
/-!
# Specification vocabulary for the package filters that keep their rules as text
-/
namespace Rez.Spec.RuleFilter
open Rez Rez.RuleFilter

/-- A call that adds a rule. -/
inductive Add where
  | exclusion (r : Rule)
  | inclusion (r : Rule)

/-- The filter after a sequence of calls. -/
def build (adds : List Add) : PackageFilter :=
  adds.foldl (fun f a => match a with
    | .exclusion r => f.addExclusion r
    | .inclusion r => f.addInclusion r) PackageFilter.new

/-- The rule of a call. -/
def Add.rule : Add → Rule
  | .exclusion r => r
  | .inclusion r => r

/-- Some exclusion matches and no inclusion does. -/
def FilteredOut (e : Engine) (adds : List Add) (p : Pkg) : Prop :=
  (∃ r, Add.exclusion r ∈ adds ∧ r.apply e p = true) ∧ ¬ ∃ r, Add.inclusion r ∈ adds ∧ r.apply e p = true

/-- A rule made by one of the constructors (regexes have no version field; times are those of `SystemTime`, which a
64-bit number of seconds limits). -/
inductive Made (e : Engine) : Rule → Prop
  | glob {p f fam r} : newGlob p f fam = some r → Made e r
  | regex {p f fam r} : f ≠ .version → newRegex e p f fam = some r → Made e r
  | range {s fam r} : newRange s fam = some r → Made e r
  | time (nanos before fam) : nanos < 2 ^ 63 * 10 ^ 9 → Made e (.time nanos before fam)

/-- What a glob pattern says: `*` stands for any text, `?` for any character, anything else for itself. -/
inductive Glob : Str → Str → Prop
  | done : Glob [] []
  | star {ps} (skipped rest : Str) : Glob ps rest → Glob ('*' :: ps) (skipped ++ rest)
  | any {ps} (c : Char) {rest : Str} : Glob ps rest → Glob ('?' :: ps) (c :: rest)
  | char {ps} {c : Char} {rest : Str} : c ≠ '*' → c ≠ '?' → Glob ps rest → Glob (c :: ps) (c :: rest)

/-- The regular expressions that globs need: a character, any character, any text. -/
inductive Item where
  | char (c : Char)
  | dot
  | dotStar

/-- The characters with a meaning in a regular expression; they stand for themselves after a backslash. -/
def meta_ : Str := c!"\\.+*?()|[]{}^$"

/-- How an item is written. -/
def Item.text : Item → Str
  | .char c => if c ∈ meta_ then ['\\', c] else [c]
  | .dot => c!"."
  | .dotStar => c!".*"

/-- What a sequence of items matches; `.` is any character but a line feed. -/
inductive ItemsMatch : List Item → Str → Prop
  | done : ItemsMatch [] []
  | char {is} {c : Char} {rest : Str} : ItemsMatch is rest → ItemsMatch (.char c :: is) (c :: rest)
  | dot {is} {c : Char} {rest : Str} : c ≠ '\n' → ItemsMatch is rest → ItemsMatch (.dot :: is) (c :: rest)
  | dotStar {is} {skipped rest : Str} : '\n' ∉ skipped → ItemsMatch is rest → ItemsMatch (.dotStar :: is) (skipped ++ rest)

/-- The regular expression engine understands `^…$` around such items. -/
def EngineOk (e : Engine) : Prop :=
  ∀ is : List Item, ∃ f, e (c!"^" ++ is.flatMap Item.text ++ c!"$") = some f ∧ ∀ s, f s = true ↔ ItemsMatch is s

end Rez.Spec.RuleFilter
