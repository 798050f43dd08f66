import Verif.Base.Text
import Verif.Base.Words
import Verif.Model.Requirement
/-!
# `src/cli/commands/complete.rs` and `forward.rs`: completion, and handing a command on

The names and the versions of packages are parameters: what `RepositoryManager` answers.  The scripts for shells are left out; they are
fixed texts.
-/
namespace Rez.Complete
open Rez

/-- complete.rs:14-49 `CompleteArgs`, with what the environment gives; `prev` is never read. -/
structure Args where
  shell : Option Str
  printScript : Bool
  completePackages : Bool
  completeVersions : Option Str
  current : Option Str
  dynamic : Bool
  compLine : Option Str
  compPoint : Option Str
  envLine : Option Str
  envPoint : Option Str

/-- complete.rs:317-348 `get_subcommand_names`. -/
def subcommands : List Str :=
  [c!"env", c!"solve", c!"build", c!"release", c!"status", c!"search", c!"view", c!"diff", c!"cp", c!"mv", c!"rm", c!"bundle",
   c!"config", c!"selftest", c!"gui", c!"context", c!"suites", c!"interpret", c!"depends", c!"pip", c!"forward", c!"benchmark",
   c!"complete", c!"source", c!"bind", c!"test", c!"pkg-cache", c!"plugins"]

/-- complete.rs:299: the subcommands that take packages. -/
def packageSubcommands : List Str := [c!"env", c!"solve", c!"search", c!"depends", c!"build", c!"release"]

/-- `&s[..n]`; `none`: `n` is within a character, which panics. -/
def sliceTo : Nat → Str → Option Str
  | 0, _ => some []
  | _ + 1, [] => none
  | n + 1, c :: s => if c.utf8Size ≤ n + 1 then (sliceTo (n + 1 - c.utf8Size) s).map (c :: ·) else none

/-- complete.rs:207-228 `complete_package_names`: what is printed. -/
def completeNames (names : Outcome (List Str)) (pre : Str) : Outcome (List Str) :=
  match names with
  | .ok l => .ok (l.filter fun n => pre.isPrefixOf n)
  | .err => .err
  | .panic => .panic

/-- complete.rs:231-255 `complete_package_versions`: what is printed, from the versions of the packages found. -/
def completeVersions (versions : Outcome (List (Option Str))) (name pre : Str) : Outcome (List Str) :=
  match versions with
  | .ok l => .ok ((l.filterMap fun v => v.map fun v => name ++ '-' :: v).filter fun t => pre.isPrefixOf t || pre.isEmpty)
  | .err => .err
  | .panic => .panic

/-- complete.rs:261-314 `complete_dynamic`. -/
def completeDynamic (names : Outcome (List Str)) (line : Str) (point : Nat) : Outcome (List Str) :=
  match if point < byteLen line then sliceTo point line else some line with
  | none => .panic
  | some line =>
    match splitWs line with
    | [] => .ok subcommands
    | [w] => .ok (subcommands.filter fun c => w.isPrefixOf c)
    | _ :: sub :: more =>
      if packageSubcommands.contains sub then completeNames names ((more.getLast?).getD [])
      else .ok []

/-- What the command does. -/
inductive Answer where
  | lines (r : Outcome (List Str))
  | script (shell : Str)
  | hint

/-- complete.rs:52-84 `execute`. -/
def execute (names : Outcome (List Str)) (versions : Str → Outcome (List (Option Str))) (a : Args) : Answer :=
  if a.dynamic || a.compLine.isSome then
    .lines (completeDynamic names ((a.compLine <|> a.envLine).getD [])
      (((a.compPoint <|> a.envPoint).bind parseU64).getD 0))
  else if a.printScript then .script (a.shell.getD c!"bash")
  else if a.completePackages then .lines (completeNames names (a.current.getD []))
  else match a.completeVersions with
    | some p => .lines (completeVersions (versions p) p (a.current.getD []))
    | none => .hint

/-! ## forward.rs -/

/-- What decides which program is run: `REZ_NEXT_BIN`, the directory of the running program, and whether `rez-next` lies there. -/
structure Surroundings where
  chosen : Option Str
  directory : Option Str
  beside : Bool

/-- forward.rs:81-107 `find_rez_next_binary`, not on Windows. -/
def findProgram (e : Surroundings) : Str :=
  match e.chosen.filter fun v => !v.isEmpty with
  | some v => v
  | none =>
    match e.directory with
    | some d => if e.beside then d ++ c!"/rez-next" else c!"rez-next"
    | none => c!"rez-next"

/-- forward.rs:13-28 `ForwardArgs`. -/
structure ForwardArgs where
  printPath : Bool
  dryRun : Bool
  args : List Str

/-- What `forward` does. -/
inductive Forwarded where
  | print (text : Str)
  | usage
  | run (program : Str) (args : List Str)
deriving DecidableEq

/-- forward.rs:31-78 `execute`: what it does. -/
def forward (e : Surroundings) (a : ForwardArgs) : Forwarded :=
  if a.printPath then .print (findProgram e)
  else if a.dryRun then .print (c!"Would execute: " ++ findProgram e ++ ' ' :: joinWith c!" " a.args)
  else if a.args.isEmpty then .usage
  else .run (findProgram e) a.args

/-- forward.rs:59-77: the exit code, from that of the program that was run: `none` if it could not be started, `some none` if a signal
ended it. -/
def exitCode : Option (Option Int) → Int
  | none => 1
  | some c => c.getD 1

end Rez.Complete
