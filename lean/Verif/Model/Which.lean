import Verif.Base.Text
/-!
# `rez-next-util/src/{which,command,filesystem}.rs`: finding programs, running them, and whether a path can be written

On Unix.  The environment, the working directory, what can be executed and what a program does are parameters.
-/
namespace Rez.Which
open Rez

/-- What the functions ask the system. -/
structure Sys where
  path : Option Str
  cwd : Option Str
  /-- which.rs:156-184 `is_executable`: a file with one of the bits for execution -/
  exec : Str → Bool

/-- `Path::join`, on texts. -/
def join (a b : Str) : Str :=
  if b.head? = some '/' then b
  else if a.isEmpty || a.getLast? = some '/' then a ++ b
  else a ++ '/' :: b

/-- which.rs:63-90: the loop over the entries of `PATH`. -/
def searchIn (exec : Str → Bool) (command : Str) : List Str → Option Str
  | [] => none
  | d :: ds =>
    if d.isEmpty then searchIn exec command ds
    else if exec (join d command) then some (join d command)
    else searchIn exec command ds

/-- which.rs:35-93 `which`. -/
def which (s : Sys) (command : Str) : Option Str :=
  match s.path with
  | none => none
  | some path =>
    match s.cwd with
    | none => none
    | some cwd =>
      if command.contains '/' || command.contains '\\' then
        let full := if command.head? = some '/' then command else join cwd command
        if s.exec full then some full else none
      else searchIn s.exec command (splitChar ':' path)

/-- which.rs:107-150 `which_all`. -/
def whichAll (s : Sys) (command : Str) : List Str :=
  match s.path with
  | none => []
  | some path => (splitChar ':' path).filterMap fun d =>
      if d.isEmpty then none else if s.exec (join d command) then some (join d command) else none

/-- command.rs:93-95 `command_exists`. -/
def commandExists (s : Sys) (command : Str) : Bool := (which s command).isSome

/-- What running a program gives: its output, and its exit code unless a signal ended it. -/
structure Output where
  stdout : Str
  stderr : Str
  code : Option Int
deriving DecidableEq

/-- command.rs:13-22 `CommandResult`. -/
structure Result where
  stdout : Str
  stderr : Str
  exitCode : Int
  success : Bool
deriving DecidableEq

/-- command.rs:26-39 `from_output`; the bytes are texts already. -/
def fromOutput (o : Output) : Result := ⟨o.stdout, o.stderr, o.code.getD (-1), o.code == some 0⟩

/-- command.rs:51-60 `execute_command`; `none`: it could not be started. -/
def execute (run : Str → List Str → Option Output) (command : Str) (args : List Str) : Option Result :=
  (run command args).map fromOutput

/-- command.rs:73-81 `execute_command_with_timeout`. -/
def executeWithTimeout (run : Str → List Str → Option Output) (command : Str) (args : List Str) (_ : Nat) : Option Result :=
  execute run command args

/-- command.rs:123-134 `get_command_output`; `none` is an error. -/
def commandOutput (run : Str → List Str → Option Output) (command : Str) (args : List Str) : Option Str :=
  match execute run command args with
  | none => none
  | some r => if !r.success then none else some r.stdout

/-! ## filesystem.rs: whether a path can be written -/

/-- What is at a path. -/
inductive Entry where
  | file (text : Str) (writable : Bool)
  | dir (writable : Bool)
deriving DecidableEq

/-- What is at each path, a path being its names, the last one first; the root is `[]`. -/
abbrev Files := List Str → Option Entry

/-- The name of the file that is made to try. -/
def probe : Str := c!".write_test_tmp"

/-- Removing a file. -/
def remove (fs : Files) (p : List Str) : Files := fun q => if q = p then none else fs q

/-- filesystem.rs:67-77: the file opened, truncated and removed, if it can be: a file that is there must be writable itself. -/
def tryDir (fs : Files) (p : List Str) (writable : Bool) : Bool × Files :=
  match fs (probe :: p) with
  | some (.file _ true) => (true, if writable then remove fs (probe :: p) else fun q => if q = probe :: p then some (.file [] true) else fs q)
  | some (.file _ false) => (false, fs)
  | some (.dir _) => (false, fs)
  | none => (writable, fs)

/-- filesystem.rs:56-81 `is_writable`, and the files after it; the parent of the root is nothing. -/
def isWritable (fs : Files) : List Str → Bool × Files
  | [] =>
    match fs [] with
    | none => (false, fs)
    | some (.dir w) => tryDir fs [] w
    | some (.file _ w) => (w, fs)
  | n :: p =>
    match fs (n :: p) with
    | none => isWritable fs p
    | some (.dir w) => tryDir fs (n :: p) w
    | some (.file _ w) => (w, fs)

end Rez.Which
