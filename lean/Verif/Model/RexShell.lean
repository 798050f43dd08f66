import Verif.Model.Rex
import Mathlib.Data.List.Sort
/-!
# Activation scripts: `rez-next-rex/src/shell.rs` and `rez-next-context/src/environment.rs`
-/
namespace Rez.RexShell
open Rez.Rex

/-- `str::replace(char, &str)`. -/
def replaceChar (c : Char) (by_ s : Str) : Str := s.flatMap fun x => if x = c then by_ else [x]

/-- `sort_by_key(|(k, _)| k)`: a stable sort by name. -/
def sortByKey (l : List (Str × Str)) : List (Str × Str) := l.insertionSort fun a b => cmpStr a.1 b.1 ≠ .gt

/-- The blank line between variables and aliases (shell.rs:65-67, 123-125, 214-216). -/
def between (e : Env) : List Str := if e.vars.isEmpty || e.aliases.isEmpty then [] else [c!""]

/-- A block with a heading, left out when it is empty. -/
def block (heading : List Str) (l : List Str) : List Str := if l.isEmpty then [] else heading ++ l

/-- shell.rs:61: the escapes of a bash value. -/
def escBash (v : Str) : Str := replaceChar '"' c!"\\\"" (replaceChar '\\' c!"\\\\" v)

/-- shell.rs:62. -/
def bashExport (x : Str × Str) : Str := c!"export " ++ x.1 ++ c!"=\"" ++ escBash x.2 ++ c!"\""

/-- shell.rs:73-74. -/
def bashAlias (x : Str × Str) : Str := c!"alias " ++ x.1 ++ c!"='" ++ replaceChar '\'' c!"'\\''" x.2 ++ c!"'"

/-- shell.rs:50-106 `generate_bash_script`: the lines. -/
def bashLines (e : Env) : List Str :=
  [c!"# Generated by rez-next rex", c!""] ++ (sortByKey e.vars).map bashExport ++ between e ++
  (sortByKey e.aliases).map bashAlias ++
  block [c!"", c!"# Startup commands"] e.startup ++
  block [c!"", c!"# Sourced scripts"] (e.sourced.map fun p => c!"source \"" ++ replaceChar '"' c!"\\\"" p ++ c!"\"") ++
  block [c!"", c!"# Info messages"] (e.info.map fun m => c!"# [info] " ++ replaceChar '\'' c!"'\\''" m)

/-- shell.rs:50-106 `generate_bash_script`. -/
def bashScript (e : Env) : Str := joinWith c!"\n" (bashLines e)

/-- shell.rs:118-119. -/
def fishSet (x : Str × Str) : Str := c!"set -gx " ++ x.1 ++ c!" \"" ++ escBash x.2 ++ c!"\""

/-- shell.rs:109-148 `generate_fish_script`. -/
def fishScript (e : Env) : Str :=
  joinWith c!"\n" ([c!"# Generated by rez-next rex", c!""] ++ (sortByKey e.vars).map fishSet ++ between e ++
    (sortByKey e.aliases).map (fun x => c!"alias " ++ x.1 ++ c!" \"" ++ x.2 ++ c!"\"") ++
    block [c!""] e.startup ++
    block [c!""] (e.sourced.map fun p => c!"source \"" ++ replaceChar '"' c!"\\\"" p ++ c!"\""))

/-- shell.rs:199-210: the name of a variable in PowerShell (`is_ascii_alphanumeric` or `_`). -/
def psName (k : Str) : Str := if k.all isTok then c!"$env:" ++ k else c!"${env:" ++ k ++ c!"}"

/-- shell.rs:200-211. -/
def psSet (x : Str × Str) : Str := psName x.1 ++ c!" = '" ++ replaceChar '\'' c!"''" x.2 ++ c!"'"

/-- shell.rs:192-240 `generate_powershell_script`. -/
def psScript (e : Env) : Str :=
  joinWith c!"\n" ([c!"# Generated by rez-next rex", c!""] ++ (sortByKey e.vars).map psSet ++ between e ++
    (sortByKey e.aliases).map (fun x => c!"Set-Alias -Name " ++ x.1 ++ c!" -Value \"" ++ x.2 ++ c!"\"") ++
    block [c!"", c!"# Startup commands"] e.startup ++
    block [c!"", c!"# Sourced scripts"] (e.sourced.map fun p => c!". '" ++ replaceChar '\'' c!"''" p ++ c!"'"))

/-- shell.rs:151-188 `generate_cmd_script`. -/
def cmdScript (e : Env) : Str :=
  joinWith c!"\r\n" ([c!"@echo off", c!"REM Generated by rez-next rex", c!""] ++
    (sortByKey e.vars).map (fun x => c!"SET \"" ++ x.1 ++ c!"=" ++ x.2 ++ c!"\"") ++
    block [c!"", c!"REM Aliases (doskey macros)"] ((sortByKey e.aliases).map fun x => c!"DOSKEY " ++ x.1 ++ c!"=" ++ x.2) ++
    block [c!""] e.startup ++
    block [c!"", c!"REM Sourced scripts"] (e.sourced.map fun p => c!"CALL \"" ++ p ++ c!"\""))

/-- shell.rs:9-15 `ShellType`. -/
inductive Shell | bash | zsh | fish | cmd | powershell
deriving DecidableEq

/-- shell.rs:40-47 `generate_shell_script`. -/
def script (e : Env) : Shell → Str
  | .bash => bashScript e
  | .zsh => bashScript e
  | .fish => fishScript e
  | .cmd => cmdScript e
  | .powershell => psScript e

/-! ## environment.rs -/

/-- environment.rs:462-467 `escape_bash_value`. -/
def ctxEscBash (v : Str) : Str := replaceChar '`' c!"\\`" (replaceChar '$' c!"\\$" (replaceChar '"' c!"\\\"" v))

/-- environment.rs:470-472 `escape_powershell_value`. -/
def ctxEscPs (v : Str) : Str := replaceChar '$' c!"`$" (replaceChar '"' c!"`\"" v)

/-- environment.rs:475-477 `escape_fish_value`. -/
def ctxEscFish (v : Str) : Str := replaceChar '$' c!"\\$" (replaceChar '"' c!"\\\"" v)

/-- environment.rs:401-412 (bash; zsh, 433-444, differs in the first line); `vars` in the order of iteration. -/
def ctxBash (vars : List (Str × Str)) : Str :=
  c!"#!/bin/bash\n# Generated by rez-core\n\n" ++
    vars.flatMap fun x => c!"export " ++ x.1 ++ c!"=\"" ++ ctxEscBash x.2 ++ c!"\"\n"

/-- environment.rs:421-431. -/
def ctxPs (vars : List (Str × Str)) : Str :=
  c!"# Generated by rez-core\n\n" ++
    vars.flatMap fun x => c!"$env:" ++ x.1 ++ c!" = \"" ++ ctxEscPs x.2 ++ c!"\"\n"

/-- environment.rs:445-456. -/
def ctxFish (vars : List (Str × Str)) : Str :=
  c!"#!/usr/bin/env fish\n# Generated by rez-core\n\n" ++
    vars.flatMap fun x => c!"set -x " ++ x.1 ++ c!" \"" ++ ctxEscFish x.2 ++ c!"\"\n"

end Rez.RexShell
