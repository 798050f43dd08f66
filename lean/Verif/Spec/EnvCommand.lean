import Verif.Model.EnvCommand
/-!
# What the env command promises

A small reading of how a POSIX shell (bash, zsh) and fish split a line into words, and of what is left on the disk.
-/
namespace Rez.EnvCmd.Spec
open Rez RexShell

/-- Where a shell is while it reads a line: between words, in a word, inside single quotes, after a backslash, or (fish)
after a backslash inside single quotes. -/
inductive Mode where
  | between
  | word (w : Str)
  | quoted (w : Str)
  | escaped (w : Str)
  | quotedEscaped (w : Str)

/-- Characters that mean nothing special anywhere in a word. -/
def plain (c : Char) : Bool := isTok c || c!"-./:,+@%".contains c

/-- A character that starts or goes on with a word. -/
def enter (w : Str) (c : Char) : Option Mode :=
  if c = '\'' then some (.quoted w)
  else if c = '\\' then some (.escaped w)
  else if plain c then some (.word (w ++ [c]))
  else none

/-- A POSIX shell: single quotes keep everything up to the next one; a backslash outside quotes keeps the next character.
`none` is anything else that a shell might do. -/
def shRead : Mode → Str → Option (List Str)
  | .between, [] => some []
  | .word w, [] => some [w]
  | _, [] => none
  | .quoted w, c :: s => if c = '\'' then shRead (.word w) s else shRead (.quoted (w ++ [c])) s
  | .escaped w, c :: s => if c = '\n' then none else shRead (.word (w ++ [c])) s
  | .between, c :: s => if c = ' ' then shRead .between s else (enter [] c).elim none fun m => shRead m s
  | .word w, c :: s => if c = ' ' then (shRead .between s).map (w :: ·) else (enter w c).elim none fun m => shRead m s
  | .quotedEscaped _, _ :: _ => none

/-- The words of a line in bash and zsh. -/
def words (s : Str) : Option (List Str) := shRead .between s

/-- fish: as above, but inside single quotes a backslash before a quote or a backslash keeps that character. -/
def fishRead : Mode → Str → Option (List Str)
  | .between, [] => some []
  | .word w, [] => some [w]
  | _, [] => none
  | .quoted w, c :: s =>
    if c = '\'' then fishRead (.word w) s
    else if c = '\\' then fishRead (.quotedEscaped w) s
    else fishRead (.quoted (w ++ [c])) s
  | .quotedEscaped w, c :: s =>
    if c = '\'' ∨ c = '\\' then fishRead (.quoted (w ++ [c])) s else fishRead (.quoted (w ++ ['\\', c])) s
  | .escaped w, c :: s => if c = '\n' then none else fishRead (.word (w ++ [c])) s
  | .between, c :: s => if c = ' ' then fishRead .between s else (enter [] c).elim none fun m => fishRead m s
  | .word w, c :: s => if c = ' ' then (fishRead .between s).map (w :: ·) else (enter w c).elim none fun m => fishRead m s

/-- The words of a line in fish. -/
def fishWords (s : Str) : Option (List Str) := fishRead .between s

/-- The files and directories that are there after some acts, of those that the acts make. -/
def leftAfter : List Str → List Act → List Str
  | l, [] => l
  | l, .writeContext p :: rest => leftAfter (l ++ [p]) rest
  | l, .makeDir p :: rest => leftAfter (l ++ [p]) rest
  | l, .removeDir p :: rest => leftAfter (l.filter (· ≠ p)) rest
  | l, .removeContext p :: rest => leftAfter (l.filter (· ≠ p)) rest
  | l, _ :: rest => leftAfter l rest

/-- A program was started. -/
def isStart : Act → Bool
  | .start .. => true
  | _ => false

/-- Something was printed. -/
def isPrint : Act → Bool
  | .print _ => true
  | _ => false

/-- The search path with a directory on it: in front, unless it is there already. -/
def pathWith (same : Str → Str → Bool) (old : Option Str) (dir : Str) : Str :=
  match old with
  | none => dir
  | some p => if (splitChar ':' p).any fun d => same d dir then p else dir ++ c!":" ++ p

/-- The shells by name. -/
def shells : List (Str × Shell) :=
  [(c!"bash", .bash), (c!"zsh", .zsh), (c!"fish", .fish), (c!"cmd", .cmd), (c!"powershell", .powershell), (c!"pwsh", .powershell)]

/-- With these arguments a shell executes a script and ends. -/
inductive Executes : Shell → List Str → Str → Prop where
  | bash (p : Str) : Executes .bash [p] p
  | zsh (p : Str) : Executes .zsh [p] p
  | fish (p : Str) : Executes .fish [p] p
  | cmd (p : Str) : Executes .cmd [c!"/D", c!"/S", c!"/C", p] p
  | powershell (p : Str) : Executes .powershell [c!"-NoProfile", c!"-File", p] p

/-- With these arguments a shell reads a script and then reads what the user types; zsh reads the one in `ZDOTDIR`. -/
inductive Opens (zdotdir : Str) : Shell → List Str → Str → Prop where
  | bash (p : Str) : Opens zdotdir .bash [c!"--rcfile", p, c!"-i"] p
  | zsh : Opens zdotdir .zsh [c!"-i"] (zdotdir ++ c!"/.zshrc")
  | fish (p : Str) : Opens zdotdir .fish [c!"-C", c!"source '" ++ p ++ c!"'", c!"-i"] p
  | cmd (p : Str) : Opens zdotdir .cmd [c!"/D", c!"/K", p] p
  | powershell (p : Str) : Opens zdotdir .powershell [c!"-NoExit", c!"-File", p] p

end Rez.EnvCmd.Spec
