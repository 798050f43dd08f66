import Verif.Base.Text
/-!
# The executable: src/bin/rez-next.rs (src/bin/rez.rs is the same program)

Parameters: the parser of arguments, and whether what is run succeeds.  Left out: what is printed.
-/
namespace Rez.MainArgs
open Rez

/-- A command as parsed; `E`, `B`, `O` stand for what else `env`, `build` and other commands are given. -/
inductive Command (E B O : Type) where
  | env (e : E)
  | build (buildArgs : Option Str) (b : B)
  | other (o : O)
deriving DecidableEq

/-- cli/mod.rs:20-50 `RezCli`: `info` and the command. -/
structure Cli (E B O : Type) where
  info : Bool
  command : Option (Command E B O)
deriving DecidableEq

/-- What the parser gives: the arguments, a text to print (help or version), or a usage error. -/
inductive Parsed (E B O : Type) where
  | cli (c : Cli E B O)
  | help
  | usage

/-- What is run. -/
inductive Ran (E B O : Type) where
  | nothing
  | cli (c : Cli E B O)
  | env (e : E) (extra : List Str)
deriving DecidableEq

variable {E B O : Type}

/-- rez-next.rs:32-42: the arguments after the name of the program, split at `--`. -/
def groups : List Str → List (List Str)
  | [] => [[]]
  | a :: rest =>
    if a = c!"--" then [] :: groups rest
    else match groups rest with
      | g :: gs => (a :: g) :: gs
      | [] => [[a]]

/-- rez-next.rs:20-23, 57-64, 82-85: the exit code of what is run. -/
def codeOf (succeeds : Ran E B O → Bool) (r : Ran E B O) : Ran E B O × Nat := (r, if succeeds r then 0 else 1)

/-- rez-next.rs:50-80: what is run for the first group as parsed and the others. -/
def choose (c : Cli E B O) (gs : List (List Str)) : Ran E B O :=
  match c.command, gs with
  | some (.env e), extra :: _ => if extra.isEmpty then .cli c else .env e extra
  | some (.build ba b), extra :: _ =>
    if extra.isEmpty then .cli c
    else .cli { c with command := some (.build (some (ba.getD (joinWith c!" " extra))) b) }
  | _, _ => .cli c

/-- rez-next.rs:28-92 `handle_grouped_command`. -/
def grouped (parse : List Str → Parsed E B O) (succeeds : Ran E B O → Bool) (prog : Str) (rest : List Str) : Ran E B O × Nat :=
  match groups rest with
  | first :: others =>
    match parse (prog :: first) with
    | .cli c => codeOf succeeds (choose c others)
    | .help => (.nothing, 0)
    | .usage => (.nothing, 1)
  | [] => (.nothing, 1)

/-- rez-next.rs:18-24 with `Parser::parse` of clap: help ends with 0 and a usage error with 2. -/
def standard (parse : List Str → Parsed E B O) (succeeds : Ran E B O → Bool) (args : List Str) : Ran E B O × Nat :=
  match parse args with
  | .cli c => codeOf succeeds (.cli c)
  | .help => (.nothing, 0)
  | .usage => (.nothing, 2)

/-- rez-next.rs:13-26 `main`: what is run, and the exit code. -/
def main (parse : List Str → Parsed E B O) (succeeds : Ran E B O → Bool) : List Str → Ran E B O × Nat
  | prog :: cmd :: rest =>
    if cmd = c!"env" ∨ cmd = c!"build" then grouped parse succeeds prog (cmd :: rest)
    else standard parse succeeds (prog :: cmd :: rest)
  | args => standard parse succeeds args

end Rez.MainArgs
