import Verif.Model.RexShell
/-!
# `src/cli/commands/env.rs`: resolving an environment and running a command or a shell in it

What the rest of the program and the system answer is a parameter (`World`): parsing requests, the resolver, the package
actions, the files and the started program.  What the command does with it is modelled, with a log of its effects.  The
code for Windows is left out.  Not read by the command, and left out: `--rcfile`, `--norc`, `--stdin`, `--new-session`,
`--detached`, `--pre-command`, `--time`, `--verbose`, `--fail-fast`, `--fail-graph`.  The options that only the resolver sees
(`--paths`, `--no-local`, `--build`, `--max-solve-time`) are part of `resolve`.
-/
namespace Rez.EnvCmd
open Rez Rez.Rex Rez.RexShell

/-- env.rs:22-118 `EnvArgs`. -/
structure Args where
  packages : List Str
  shell : Option Str
  command : Option Str
  quiet : Bool
  printResolve : Bool
  printRequest : Bool
  printEnv : Bool
  printScript : Bool
  format : Option Str

/-- A resolved package: its name and the text of its version. -/
structure Pkg where
  name : Str
  version : Option Str

/-- A resolved context: the requests as they are shown, and the packages. -/
structure Ctx where
  requests : List Str
  packages : List Pkg

/-- What the rest of the program and the system answer. -/
structure World where
  /-- env.rs:181-197: a request, parsed and shown again. -/
  parse : Str → Option Str
  /-- env.rs:200-290 `resolve_environment`. -/
  resolve : List Str → Option (List Pkg)
  /-- env.rs:339-342: the environment after the package actions. -/
  rex : Ctx → Option Env
  /-- env.rs:351: the directory of the running program, if it is known. -/
  exeDir : Option Str
  /-- `==` of paths. -/
  samePath : Str → Str → Bool
  /-- env.rs:175: the file for the context. -/
  contextPath : Str
  contextWritten : Bool
  /-- env.rs:486: the directory for the script. -/
  tempDir : Option Str
  scriptWritten : Bool
  /-- the started program: `none` if it cannot be started, else its exit code, if it has one -/
  status : Option (Option Int)
  /-- the variables of the running program -/
  parent : List (Str × Str)
  /-- the order in which a map is iterated -/
  iter : List (Str × Str) → List (Str × Str)
  /-- `serde_json::to_string_pretty` of a map -/
  json : List (Str × Str) → Str

/-- What the command does. -/
inductive Act where
  | print (lines : List Str)
  | writeContext (path : Str)
  | makeDir (path : Str)
  | writeScript (path text : Str)
  | start (program : Str) (args : List Str) (vars : List (Str × Str))
  | removeDir (path : Str)
  | removeContext (path : Str)
deriving DecidableEq

/-- How it ends: normally, with an error message, or with `std::process::exit`. -/
inductive End where
  | done
  | failed
  | exit (code : Int)
deriving DecidableEq

/-- env.rs:638-651 `quote_shell_argument`, not on Windows. -/
def quoteArg (a : Str) : Str := c!"'" ++ replaceChar '\'' c!"'\\''" a ++ c!"'"

/-- env.rs:609-615, 622-626. -/
def quoteAll (args : List Str) : Str := joinWith c!" " (args.map quoteArg)

/-- env.rs:621-636 `expand_alias`. -/
def expandAlias (text : Str) (args : List Str) : Str :=
  if containsStr text c!"$*" then replaceAll c!"$*" (quoteAll args) text
  else if containsStr text c!"$@" then replaceAll c!"$@" (quoteAll args) text
  else if (quoteAll args).isEmpty then text
  else text ++ c!" " ++ quoteAll args

/-- env.rs:606-617: the command for the arguments after `--`. -/
def commandOf (aliases : List (Str × Str)) : List Str → Str
  | [] => []
  | first :: rest =>
    match mget aliases first with
    | some a => expandAlias a rest
    | none => quoteAll (first :: rest)

/-- env.rs:387-416 `prepend_executable_dir`; `join_paths` refuses a directory with a colon. -/
def prependDir (same : Str → Str → Bool) (vars : List (Str × Str)) (dir : Str) : Option (List (Str × Str)) :=
  let paths := match mget vars c!"PATH" with
    | some p => splitChar ':' p
    | none => []
  let paths := if paths.any fun p => same p dir then paths else dir :: paths
  if paths.any fun p => p.contains ':' then none else some (mset vars c!"PATH" (joinWith c!":" paths))

/-- env.rs:363-370: a resolved package as it is shown. -/
def Pkg.shown (p : Pkg) : Str :=
  match p.version with
  | some v => p.name ++ c!"-" ++ v
  | none => p.name

/-- env.rs:335-385 `context_environment`. -/
def environment (w : World) (c : Ctx) (rxt : Option Str) : Option Env :=
  match w.rex c with
  | none => none
  | some e =>
    if e.stopped then none
    else
      match (match w.exeDir with
        | some d => prependDir w.samePath e.vars d
        | none => some e.vars) with
      | none => none
      | some vars =>
        let vars := mset vars c!"REZ_USED_REQUEST" (joinWith c!" " c.requests)
        let resolved := joinWith c!" " (c.packages.map Pkg.shown)
        let vars := mset vars c!"REZ_USED_RESOLVE" resolved
        let vars := mset vars c!"REZ_USED_PACKAGES_NAMES" resolved
        some { e with vars := match rxt with
          | some p => mset vars c!"REZ_RXT_FILE" p
          | none => vars }

/-- rez-next-rex/src/shell.rs:18-31 `ShellType::from_str`; only ASCII letters have one of these names in lower case. -/
def parseShell (s : Str) : Option Shell :=
  let l := s.map lowerChar
  if l = c!"bash" then some .bash
  else if l = c!"zsh" then some .zsh
  else if l = c!"fish" then some .fish
  else if l = c!"cmd" then some .cmd
  else if l = c!"powershell" ∨ l = c!"pwsh" then some .powershell
  else none

/-- env.rs:468-475: the shell of a printed script. -/
def scriptShell (s : Option Str) : Shell :=
  let s := s.getD c!"bash"
  if s = c!"bash" ∨ s = c!"sh" then .bash
  else if s = c!"zsh" then .zsh
  else if s = c!"fish" then .fish
  else if s = c!"cmd" then .cmd
  else if s = c!"powershell" ∨ s = c!"pwsh" then .powershell
  else .bash

/-- env.rs:487-493: the name of the script. -/
def scriptName : Shell → Str
  | .bash => c!"rez-env.sh"
  | .zsh => c!".zshrc"
  | .fish => c!"rez-env.fish"
  | .cmd => c!"rez-env.cmd"
  | .powershell => c!"rez-env.ps1"

/-- env.rs:500-507: the text of the script. -/
def scriptText (e : Env) (s : Shell) (command : Option Str) : Str :=
  match command with
  | some c => script e s ++ (if s = .cmd then c!"\r\n" else c!"\n") ++ c
  | none => script e s

/-- env.rs:568-578: how a command is run. -/
def commandArgs (s : Shell) (path : Str) : List Str :=
  match s with
  | .cmd => [c!"/D", c!"/S", c!"/C", path]
  | .powershell => [c!"-NoProfile", c!"-File", path]
  | _ => [path]

/-- env.rs:678-698: how an interactive shell is started. -/
def shellArgs (s : Shell) (path : Str) : List Str :=
  match s with
  | .cmd => [c!"/D", c!"/K", path]
  | .powershell => [c!"-NoExit", c!"-File", path]
  | .bash => [c!"--rcfile", path, c!"-i"]
  | .zsh => [c!"-i"]
  | .fish => [c!"-C", c!"source '" ++ path ++ c!"'", c!"-i"]

/-- `Command::envs` on top of the variables that a child inherits. -/
def withVars (parent vars : List (Str × Str)) : List (Str × Str) := vars.foldl (fun m e => mset m e.1 e.2) parent

/-- env.rs:418-429 `print_context_summary`: the lines. -/
def summary (c : Ctx) (action : Str) : List Str :=
  [action, c!"Resolved packages:"] ++ (c.packages.map fun p => c!"  " ++ p.name ++ c!"-" ++ p.version.getD []) ++ [[]]

/-- env.rs:547-593, 654-718: a program is started with a script; `command` is none for an interactive shell. -/
def launch (w : World) (a : Args) (c : Ctx) (e : Env) (command : Option Str) : End × List Act :=
  let heading := if a.quiet then []
    else [Act.print (summary c (match command with
      | some t => c!"Executing command in rez environment: " ++ t
      | none => c!"You are now in a rez-configured environment."))]
  let program := a.shell.getD c!"bash"
  match parseShell program with
  | none => (.failed, heading)
  | some s =>
    match w.tempDir with
    | none => (.failed, heading)
    | some dir =>
      let path := dir ++ c!"/" ++ scriptName s
      let vars := mset e.vars c!"REZ_CONTEXT_FILE" path
      let made := heading ++ [.makeDir dir, .writeScript path (scriptText { e with vars := vars } s command)]
      if !w.scriptWritten then (.failed, made ++ [.removeDir dir])
      else
        let extra := if s = .zsh ∧ command = none then [(c!"ZDOTDIR", dir)] else []
        let args := match command with
          | some _ => commandArgs s path
          | none => shellArgs s path
        let started := made ++ [.start program args (withVars (withVars w.parent extra) vars)]
        match w.status with
        | none => (.failed, made ++ [.removeDir dir])
        | some code =>
          let removed := match mget vars c!"REZ_RXT_FILE" with
            | some p => [Act.removeContext p]
            | none => []
          (.exit (code.getD (if command.isSome then 1 else 0)), started ++ [.removeDir dir] ++ removed)

/-- env.rs:519-535 `execute_in_context`. -/
def inContext (w : World) (a : Args) (extra : List Str) (c : Ctx) : End × List Act :=
  match environment w c (some w.contextPath) with
  | none => (.failed, [])
  | some e =>
    match a.command with
    | some t => launch w a c e (some t)
    | none => if extra.isEmpty then launch w a c e none else launch w a c e (some (commandOf e.aliases extra))

/-- env.rs:432-455 `print_environment`: the lines. -/
def envLines (w : World) (format : Option Str) (vars : List (Str × Str)) : List Str :=
  if format = some c!"json" then [w.json vars]
  else if format = some c!"dict" then (w.iter vars).map fun x => c!"'" ++ x.1 ++ c!"': '" ++ x.2 ++ c!"'"
  else (w.iter vars).map fun x => c!"export " ++ x.1 ++ c!"=\"" ++ x.2 ++ c!"\""

/-- env.rs:326-331: a resolved package as `--print-resolve` shows it. -/
def resolveLine (p : Pkg) : Str := p.name ++ c!"-" ++ p.version.getD []

/-- env.rs:126-170 `execute_with_extra_args`. -/
def run (w : World) (a : Args) (extra : List Str) : End × List Act :=
  if !extra.isEmpty && a.command.isSome then (.failed, [])
  else
    match a.packages.mapM w.parse with
    | none => (.failed, [])
    | some requests =>
      if a.printRequest then (.done, [.print requests])
      else
        match w.resolve requests with
        | none => (.failed, [])
        | some packages =>
          let c : Ctx := ⟨requests, packages⟩
          if a.printResolve then (.done, [.print (packages.map resolveLine)])
          else if a.printEnv then
            match environment w c none with
            | none => (.failed, [])
            | some e => (.done, [.print (envLines w a.format e.vars)])
          else if a.printScript then
            match environment w c none with
            | none => (.failed, [])
            | some e => (.done, [.print [script e (scriptShell a.shell)]])
          else if !w.contextWritten then (.failed, [.writeContext w.contextPath])
          else
            match inContext w a extra c with
            | (.failed, log) => (.failed, [.writeContext w.contextPath] ++ log ++ [.removeContext w.contextPath])
            | (r, log) => (r, [.writeContext w.contextPath] ++ log)

end Rez.EnvCmd
