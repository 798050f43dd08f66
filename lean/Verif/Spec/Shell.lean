import Verif.Base.Text
/-!
# What assignments mean in bash, fish and PowerShell

A small reading of each shell's manual: enough to say which value an assignment gives.  `none` means that the text is
something else (a command, an expansion that is not a plain variable, an unfinished string).
-/
namespace Rez.Spec.Shell
open Rez

/-- What a shell knows: variables and aliases. -/
structure State where
  var : Str → Option Str
  alias : Str → Option Str

def State.setVar (st : State) (k v : Str) : State := { st with var := fun j => if j = k then some v else st.var j }
def State.setAlias (st : State) (k v : Str) : State := { st with alias := fun j => if j = k then some v else st.alias j }

/-- A name: a letter or underscore, then letters, digits and underscores. -/
def name : Str → Option (Str × Str)
  | c :: s => if isAlpha c || c == '_' then some (c :: s.takeWhile isTok, s.dropWhile isTok) else none
  | [] => none

def IsName (k : Str) : Prop := ∃ c s, k = c :: s ∧ (isAlpha c = true ∨ c = '_') ∧ ∀ x ∈ s, isTok x = true

/-- `text` at the start of `s`: what comes after. -/
def after (text s : Str) : Option Str := if text.isPrefixOf s then some (s.drop text.length) else none

/-- Put text in front of a value that was read. -/
def push (t : Str) (x : Option (Str × Str)) : Option (Str × Str) := x.map fun p => (t ++ p.1, p.2)

/-- `$` before one of these starts an expansion that is not a plain variable. -/
def otherExpansion (s : Str) : Bool :=
  match s with
  | c :: _ => c!"{(@*#?-$!0123456789".contains c
  | [] => false

/-- bash, inside double quotes: a backslash before `$`, a backtick, `"` or a backslash gives that character, before a
line feed nothing, else itself; `$name` is the value of a variable; a backtick is a command. -/
def bashDq (var : Str → Option Str) : Nat → Str → Option (Str × Str)
  | 0, _ => none
  | _, [] => none
  | k + 1, c :: s =>
    if c = '"' then some ([], s)
    else if c = '`' then none
    else if c = '\\' then
      match s with
      | [] => none
      | d :: s =>
        if d = '$' ∨ d = '`' ∨ d = '"' ∨ d = '\\' then push [d] (bashDq var k s)
        else if d = '\n' then bashDq var k s
        else push ['\\', d] (bashDq var k s)
    else if c = '$' then
      match name s with
      | some (n, s) => push ((var n).getD []) (bashDq var k s)
      | none => if otherExpansion s then none else push ['$'] (bashDq var k s)
    else push [c] (bashDq var k s)

/-- bash, a word: quoted parts and backslashes one after the other, up to the end of the line. -/
def bashWord (var : Str → Option Str) : Nat → Str → Option (Str × Str)
  | 0, _ => none
  | _, [] => some ([], [])
  | k + 1, c :: s =>
    if c = '\n' then some ([], c :: s)
    else if c = '\'' then
      match s.dropWhile (· != '\'') with
      | [] => none
      | _ :: r => push (s.takeWhile (· != '\'')) (bashWord var k r)
    else if c = '"' then
      (bashDq var (s.length + 1) s).bind fun p => push p.1 (bashWord var k p.2)
    else if c = '\\' then
      match s with
      | [] => none
      | d :: s => push [d] (bashWord var k s)
    else if isTok c then push [c] (bashWord var k s)
    else none

/-- The end of a statement: the end of the text or a line feed. -/
def endLine : Str → Option Str
  | [] => some []
  | c :: s => if c = '\n' then some s else none

/-- A comment reaches to the end of the line. -/
def afterComment (s : Str) : Str := (s.dropWhile (· != '\n')).drop 1

/-- bash: an empty line, a comment, `export name=word` or `alias name=word`. -/
def bashStep (st : State) (s : Str) : Option (State × Str) :=
  match after c!"\n" s with
  | some r => some (st, r)
  | none =>
    match after c!"#" s with
    | some r => some (st, afterComment r)
    | none =>
      match after c!"export " s with
      | some r => (name r).bind fun p => (after c!"=" p.2).bind fun r => (bashWord st.var (r.length + 1) r).bind fun q =>
          (endLine q.2).map fun r => (st.setVar p.1 q.1, r)
      | none => (after c!"alias " s).bind fun r => (name r).bind fun p => (after c!"=" p.2).bind fun r =>
          (bashWord st.var (r.length + 1) r).bind fun q => (endLine q.2).map fun r => (st.setAlias p.1 q.1, r)

/-- fish, inside double quotes: a backslash before `$`, `"` or a backslash gives that character, before a line feed
nothing, else itself; `$name` is the value of a variable. -/
def fishDq (var : Str → Option Str) : Nat → Str → Option (Str × Str)
  | 0, _ => none
  | _, [] => none
  | k + 1, c :: s =>
    if c = '"' then some ([], s)
    else if c = '\\' then
      match s with
      | [] => none
      | d :: s =>
        if d = '$' ∨ d = '"' ∨ d = '\\' then push [d] (fishDq var k s)
        else if d = '\n' then fishDq var k s
        else push ['\\', d] (fishDq var k s)
    else if c = '$' then
      match name s with
      | some (n, s) => push ((var n).getD []) (fishDq var k s)
      | none => none
    else push [c] (fishDq var k s)

/-- fish: an empty line, a comment, `set <flag> name "…"` or `alias name "…"`. -/
def fishStep (flag : Str) (st : State) (s : Str) : Option (State × Str) :=
  match after c!"\n" s with
  | some r => some (st, r)
  | none =>
    match after c!"#" s with
    | some r => some (st, afterComment r)
    | none =>
      match after c!"alias " s with
      | some r => (name r).bind fun p => (after c!" \"" p.2).bind fun r =>
          (fishDq st.var (r.length + 1) r).bind fun q => (endLine q.2).map fun r => (st.setAlias p.1 q.1, r)
      | none => (after (c!"set " ++ flag ++ c!" ") s).bind fun r => (name r).bind fun p => (after c!" \"" p.2).bind fun r =>
          (fishDq st.var (r.length + 1) r).bind fun q => (endLine q.2).map fun r => (st.setVar p.1 q.1, r)

/-- PowerShell takes typographic quotes for quotes. -/
def psSingle (c : Char) : Bool := c == '\'' || c == '‘' || c == '’' || c == '‚' || c == '‛'
def psDouble (c : Char) : Bool := c == '"' || c == '“' || c == '”' || c == '„'

/-- PowerShell, inside single quotes: two quotes stand for the second of them, everything else for itself. -/
def psSq : Nat → Str → Option (Str × Str)
  | 0, _ => none
  | _, [] => none
  | k + 1, c :: s =>
    if psSingle c then
      match s with
      | [] => some ([], [])
      | d :: r => if psSingle d then push [d] (psSq k r) else some ([], s)
    else push [c] (psSq k s)

/-- What a character after a backtick stands for (the escapes that are single characters). -/
def psEscape (c : Char) : Char :=
  if c = 'n' then '\n' else if c = 't' then '\t' else if c = 'r' then '\r' else if c = '0' then '\x00'
  else if c = 'a' then '\x07' else if c = 'b' then '\x08' else if c = 'f' then '\x0c' else if c = 'v' then '\x0b'
  else if c = 'e' then '\x1b' else c

/-- PowerShell, inside double quotes: backtick escapes, two quotes for the second of them, `$name` for a variable. -/
def psDq (var : Str → Option Str) : Nat → Str → Option (Str × Str)
  | 0, _ => none
  | _, [] => none
  | k + 1, c :: s =>
    if psDouble c then
      match s with
      | [] => some ([], [])
      | d :: r => if psDouble d then push [d] (psDq var k r) else some ([], s)
    else if c = '`' then
      match s with
      | [] => none
      | d :: s => push [psEscape d] (psDq var k s)
    else if c = '$' then
      match name s with
      | some (n, s) => push ((var n).getD []) (psDq var k s)
      | none => if otherExpansion s then none else push ['$'] (psDq var k s)
    else push [c] (psDq var k s)

/-- PowerShell: a variable of the environment, `$env:name` or `${env:name}`. -/
def psTarget (s : Str) : Option (Str × Str) :=
  match after c!"${env:" s with
  | some r =>
    if (r.takeWhile (· != '}')).contains '`' then none
    else (after c!"}" (r.dropWhile (· != '}'))).map fun q => (r.takeWhile (· != '}'), q)
  | none => (after c!"$env:" s).bind fun r =>
    if (r.takeWhile isTok).isEmpty then none else some (r.takeWhile isTok, r.dropWhile isTok)

/-- PowerShell: a quoted text. -/
def psQuoted (var : Str → Option Str) : Str → Option (Str × Str)
  | [] => none
  | c :: r => if psSingle c then psSq (r.length + 1) r else if psDouble c then psDq var (r.length + 1) r else none

/-- PowerShell: an empty line, a comment, an assignment of a quoted text, or `Set-Alias -Name name -Value` with one. -/
def psStep (st : State) (s : Str) : Option (State × Str) :=
  match after c!"\n" s with
  | some r => some (st, r)
  | none =>
    match after c!"#" s with
    | some r => some (st, afterComment r)
    | none =>
      match after c!"Set-Alias -Name " s with
      | some r => (name r).bind fun p => (after c!" -Value " p.2).bind fun r => (psQuoted st.var r).bind fun q =>
          (endLine q.2).map fun r => (st.setAlias p.1 q.1, r)
      | none => (psTarget s).bind fun p => (after c!" = " p.2).bind fun r => (psQuoted st.var r).bind fun q =>
          (endLine q.2).map fun r => (st.setVar p.1 q.1, r)

/-- Statement after statement. -/
def runAux (step : State → Str → Option (State × Str)) : Nat → State → Str → Option State
  | 0, _, _ => none
  | k + 1, st, s => if s.isEmpty then some st else (step st s).bind fun p => runAux step k p.1 p.2

/-- The state after a script. -/
def run (step : State → Str → Option (State × Str)) (st : State) (s : Str) : Option State := runAux step (s.length + 1) st s

end Rez.Spec.Shell
